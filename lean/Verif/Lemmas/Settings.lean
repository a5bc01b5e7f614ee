import Verif.Spec.Settings

/-! # The loop of `BaseCoder.__init__` -/
namespace EthAbi
open Spec

theorem dictLookup_some {α : Type} {d : List (AttrName × α)} (hd : IsDict d) {k : AttrName} {v : α} :
    d.lookup k = some v ↔ (k, v) ∈ d := by
  induction d with
  | nil => simp
  | cons a d ih =>
    obtain ⟨k', v'⟩ := a
    have hd' := List.nodup_cons.1 (show ((k' :: keysOf d)).Nodup from hd)
    have ih := ih hd'.2
    by_cases h : k = k'
    · subst h
      have : (k, v) ∉ d := fun hm => hd'.1 (List.mem_map.2 ⟨_, hm, rfl⟩)
      simp only [List.lookup, beq_self_eq_true, Option.some.injEq, List.mem_cons, Prod.mk.injEq, true_and, this,
        or_false]
      exact eq_comm
    · have hb : (k == k') = false := by simpa using h
      simp only [List.lookup, hb, ih, List.mem_cons, Prod.mk.injEq, h, false_and, false_or]

theorem dictLookup_none {α : Type} {d : List (AttrName × α)} {k : AttrName} : d.lookup k = none ↔ k ∉ keysOf d := by
  induction d with
  | nil => simp [keysOf]
  | cons a d ih =>
    obtain ⟨k', v'⟩ := a
    by_cases h : k = k'
    · subst h; simp [List.lookup, keysOf]
    · have hb : (k == k') = false := by simpa using h
      simp only [List.lookup, hb, ih]
      simp [keysOf, h]

theorem inherits_iff {α : Type} {ds : List (List (AttrName × α))} (hd : ∀ d ∈ ds, IsDict d) {k : AttrName} {v : α} :
    SettingsClass.find k ds = some v ↔ Inherits ds k v := by
  induction ds with
  | nil => constructor <;> intro h <;> cases h
  | cons d ds ih =>
    have ih := ih (fun d hd' => hd d (by simp [hd']))
    have hd := hd d (by simp)
    simp only [SettingsClass.find]
    split
    · next u hu =>
      have hm := (dictLookup_some hd).1 hu
      constructor
      · intro h; cases h; exact .here hm
      · intro h
        cases h with
        | here h1 => rw [← hu]; exact (dictLookup_some hd).2 h1
        | up h1 _ => exact absurd (List.mem_map.2 ⟨_, hm, rfl⟩) h1
    · next hn =>
      rw [ih]
      rw [dictLookup_none] at hn
      constructor
      · exact .up hn
      · intro h
        cases h with
        | here h1 => exact absurd (List.mem_map.2 ⟨_, h1, rfl⟩) hn
        | up _ h2 => exact h2

theorem hasattr_iff {α : Type} {c : SettingsClass α} (hd : ∀ d ∈ c.mro, IsDict d) {k : AttrName} :
    c.hasattr k = true ↔ KnownSetting c k := by
  simp only [SettingsClass.hasattr, Bool.or_eq_true, KnownSetting, Option.isSome_iff_exists, inherits_iff hd, List.elem_eq_mem,
    decide_eq_true_eq]

theorem dictLookup_assign {α : Type} (k : AttrName) (v : α) (d : List (AttrName × α)) (j : AttrName) :
    (assignItem k v d).lookup j = if j = k then some v else d.lookup j := by
  induction d with
  | nil =>
    by_cases h : j = k
    · subst h; simp [assignItem]
    · have hb : (j == k) = false := by simpa using h
      simp [assignItem, List.lookup, hb, h]
  | cons a d ih =>
    obtain ⟨k', v'⟩ := a
    simp only [assignItem]
    by_cases h1 : k' = k
    · subst h1
      rw [if_pos rfl]
      by_cases h : j = k'
      · subst h; simp
      · have hb : (j == k') = false := by simpa using h
        simp [List.lookup, hb, h]
    · rw [if_neg h1]
      by_cases h : j = k'
      · subst h
        simp [h1]
      · have hb : (j == k') = false := by simpa using h
        simp only [List.lookup, hb]
        exact ih

theorem assignAll_ok {α : Type} {kwargs : List (AttrName × α)} {o o' : SettingsObj α}
    (h : SettingsObj.assignAll kwargs o = .ok o') :
    o'.cls = o.cls ∧ (∀ p ∈ kwargs, o.cls.hasattr p.1 = true) ∧
      (IsDict kwargs → ∀ k, o'.dict.lookup k = (kwargs.lookup k).or (o.dict.lookup k)) := by
  induction kwargs generalizing o with
  | nil => cases h; exact ⟨rfl, by simp, fun _ k => by simp⟩
  | cons a kwargs ih =>
    obtain ⟨key, v⟩ := a
    simp only [SettingsObj.assignAll] at h
    split at h
    · cases h
    · next hk =>
      obtain ⟨h1, h2, h3⟩ := ih h
      refine ⟨h1, ?_, ?_⟩
      · intro p hp
        rcases List.mem_cons.1 hp with rfl | hp
        · simpa using hk
        · exact h2 p hp
      · intro hd k
        have hd' := List.nodup_cons.1 (show ((key :: keysOf kwargs)).Nodup from hd)
        rw [h3 hd'.2 k, SettingsObj.setattr, dictLookup_assign]
        by_cases hkk : k = key
        · subst hkk
          rw [dictLookup_none.2 hd'.1]
          simp
        · have hb : (k == key) = false := by simpa using hkk
          simp [List.lookup, hb, hkk]

theorem assignAll_known {α : Type} {kwargs : List (AttrName × α)} {o : SettingsObj α}
    (h : ∀ p ∈ kwargs, o.cls.hasattr p.1 = true) : ∃ o', SettingsObj.assignAll kwargs o = .ok o' := by
  induction kwargs generalizing o with
  | nil => exact ⟨o, rfl⟩
  | cons a kwargs ih =>
    obtain ⟨key, v⟩ := a
    simp only [SettingsObj.assignAll, h (key, v) (by simp), Bool.not_true, Bool.false_eq_true, if_false]
    exact ih (o := o.setattr key v) (fun p hp => h p (by simp [hp]))

theorem assignAll_unknown {α : Type} {kwargs : List (AttrName × α)} {o : SettingsObj α} {e : SettingsError} :
    SettingsObj.assignAll kwargs o = .error e ↔ ∃ pre k v post, kwargs = pre ++ (k, v) :: post ∧
      (∀ p ∈ pre, o.cls.hasattr p.1 = true) ∧ o.cls.hasattr k = false ∧ e = .notFound k o.cls.name := by
  induction kwargs generalizing o with
  | nil => simp [SettingsObj.assignAll]
  | cons a kwargs ih =>
    obtain ⟨key, v⟩ := a
    simp only [SettingsObj.assignAll]
    split
    · next hk =>
      have hk : o.cls.hasattr key = false := by simpa using hk
      constructor
      · intro h; cases h; exact ⟨[], key, v, kwargs, rfl, by simp, hk, rfl⟩
      · rintro ⟨pre, k, v', post, h1, h2, h3, rfl⟩
        cases pre with
        | nil => cases h1; rfl
        | cons p pre =>
          cases h1
          rw [h2 _ (List.mem_cons_self ..)] at hk
          cases hk
    · next hk =>
      have hk : o.cls.hasattr key = true := by simpa using hk
      rw [ih (o := o.setattr key v)]
      constructor
      · rintro ⟨pre, k, v', post, rfl, h2, h3, rfl⟩
        refine ⟨(key, v) :: pre, k, v', post, rfl, ?_, h3, rfl⟩
        intro p hp
        rcases List.mem_cons.1 hp with rfl | hp
        · exact hk
        · exact h2 p hp
      · rintro ⟨pre, k, v', post, h1, h2, h3, rfl⟩
        cases pre with
        | nil => cases h1; rw [hk] at h3; cases h3
        | cons p pre =>
          cases h1
          exact ⟨pre, k, v', post, rfl, fun p hp => h2 p (by simp [hp]), h3, rfl⟩

theorem showsSettings_of {α : Type} {c : SettingsClass α} (hd : ∀ d ∈ c.mro, IsDict d) {kwargs : List (AttrName × α)}
    (hk : IsDict kwargs) {o : SettingsObj α} (h : SettingsObj.assignAll kwargs ⟨c, []⟩ = .ok o) :
    ShowsSettings c kwargs o.getattr := by
  obtain ⟨h1, _, h3⟩ := assignAll_ok h
  intro k v
  have h3 := h3 hk k
  simp only [List.lookup, Option.or_none] at h3
  simp only [SettingsObj.getattr, h1, h3, Setting]
  split
  · next u hu =>
    have hm := (dictLookup_some hk).1 hu
    constructor
    · intro h; cases h; exact .inl hm
    · rintro (h | ⟨h, _⟩)
      · rw [← hu]; exact (dictLookup_some hk).2 h
      · exact absurd (List.mem_map.2 ⟨_, hm, rfl⟩) h
  · next hn =>
    rw [inherits_iff hd]
    rw [dictLookup_none] at hn
    constructor
    · exact fun h => .inr ⟨hn, h⟩
    · rintro (h | ⟨_, h⟩)
      · exact absurd (List.mem_map.2 ⟨_, h, rfl⟩) hn
      · exact h

theorem showsSettings_unique {α : Type} {c : SettingsClass α} {kwargs : List (AttrName × α)} {f g : AttrName → Option α}
    (hf : ShowsSettings c kwargs f) (hg : ShowsSettings c kwargs g) : f = g := by
  funext k
  apply Option.ext
  intro v
  rw [hf, hg]

end EthAbi
