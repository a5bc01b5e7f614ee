import Verif.Lemmas.Normalize

/-! # Names of types and parsed types -/
namespace EthAbi
open Spec

/-- An integer type. -/
def subInt (mk : Nat → Ty) : Sub → Option Ty
  | .one n => if validBits n then some (mk n) else none
  | _ => none

/-- A fixed-point type. -/
def subFixed (mk : Nat → Nat → Ty) : Sub → Option Ty
  | .two m n => if validBits m ∧ 0 < n ∧ n ≤ 80 then some (mk m n) else none
  | _ => none

/-- A type without sub part. -/
def subNone (t : Ty) : Sub → Option Ty
  | .none => some t
  | _ => none

/-- `bytes` or `bytesM`. -/
def subBytes : Sub → Option Ty
  | .none => some .bytes
  | .one n => if 0 < n ∧ n ≤ 32 then some (.bytesM n) else none
  | .two _ _ => none

/-- The type of a normalized base and sub part. -/
def baseTy (base : List Char) (sub : Sub) : Option Ty :=
  if base = t!"uint" then subInt .uint sub
  else if base = t!"int" then subInt .int sub
  else if base = t!"address" then subNone .address sub
  else if base = t!"bool" then some .bool
  else if base = t!"ufixed" then subFixed .ufixed sub
  else if base = t!"fixed" then subFixed .fixed sub
  else if base = t!"bytes" then subBytes sub
  else if base = t!"string" then subNone .string sub
  else none

/-- One array dimension. -/
def wrapDim (t : Ty) : Option Nat → Ty
  | some k => .sized k t
  | none => .dyn t

/-- The array dimensions, innermost first. -/
def wrapDims (t : Ty) (arr : List (Option Nat)) : Ty := arr.foldl wrapDim t

mutual
/-- The type of a normalized parsed type, if it has one. -/
def meaning : ABIType → Option Ty
  | .basic b s arr => (baseTy b s).map (wrapDims · arr)
  | .tuple cs arr => (meanings cs).map fun ts => wrapDims (.tuple ts) arr
/-- The types of the components. -/
def meanings : List ABIType → Option (List Ty)
  | [] => some []
  | c :: cs =>
    match meaning c, meanings cs with
    | some t, some ts => some (t :: ts)
    | _, _ => none
end

/-- The parsed type with one more (outermost) dimension. -/
def addDim : ABIType → Option Nat → ABIType
  | .basic b s arr, d => .basic b s (arr ++ [d])
  | .tuple cs arr, d => .tuple cs (arr ++ [d])

theorem meaning_addDim (a : ABIType) (d : Option Nat) :
    meaning (addDim a d) = (meaning a).map (wrapDim · d) := by
  cases a <;> simp [addDim, meaning, wrapDims, Option.map_map, Function.comp_def]

theorem normTy_addDim (a : ABIType) (d : Option Nat) : normTy (addDim a d) = addDim (normTy a) d := by
  cases a <;> simp [addDim, normTy]

theorem numsOk_addDim [Ext] (a : ABIType) (d : Option Nat) :
    (addDim a d).numsOk = (a.numsOk && arrNumsOk [d]) := by
  cases a <;> simp [addDim, ABIType.numsOk, arrNumsOk, Bool.and_assoc]

theorem derivesDims_append {ds : List (Option Nat)} {w : List Char} (h : DerivesDims ds w)
    {es : List (Option Nat)} {v : List Char} (h' : DerivesDims es v) :
    DerivesDims (ds ++ es) (w ++ v) := by
  induction h with
  | nil => exact h'
  | dynamic _ ih => exact List.append_assoc _ _ _ ▸ DerivesDims.dynamic ih
  | @sized ds n s t ht _ ih =>
    have := DerivesDims.sized ht ih
    simpa using this

theorem derives_addDim {a : ABIType} {s : List Char} {d : Option Nat} {w : List Char}
    (h : Derives a s) (hd : DerivesDims [d] w) : Derives (addDim a d) (s ++ w) := by
  cases h with
  | basic h1 h2 h3 h4 =>
    rw [List.append_assoc]
    exact .basic h1 h2 h3 (derivesDims_append h4 hd)
  | tuple h1 h2 =>
    rw [List.append_assoc]
    exact .tuple h1 (derivesDims_append h2 hd)

theorem dims_one {k : Nat} (hk : 0 < k) : DerivesDims [some k] (t!"[" ++ natDigits k ++ t!"]") := by
  have := DerivesDims.sized (numeral_natDigits k hk) DerivesDims.nil
  simpa using this

theorem letters_of {b : List Char} (hb : b.all isAlph = true) : ∀ c ∈ b, IsLetter c :=
  fun c hc => isAlph_iff.1 (List.all_eq_true.1 hb c hc)

/-- The parsed type of a name. -/
theorem derives_base {b s : List Char} {sub : Sub} (hb : b ≠ [] ∧ b.all isAlph = true)
    (hs : DerivesSub sub s) : Derives (.basic b sub []) (b ++ s) := by
  have := Derives.basic hb.1 (letters_of hb.2) hs DerivesDims.nil
  simpa using this

theorem derives_word {b : List Char} (hb : b ≠ [] ∧ b.all isAlph = true) :
    Derives (.basic b .none []) b := by
  have := derives_base hb DerivesSub.none
  simpa using this

theorem validBits_pos {n : Nat} (h : validBits n) : 0 < n ∧ n < 1000 := by
  obtain ⟨h1, h2, _⟩ := h; omega

theorem normBase_of_sub {b : List Char} {sub : Sub} (h : sub ≠ .none) : normBase b sub = (b, sub) := by
  cases sub <;> first | exact absurd rfl h | rfl

theorem basic_bridge [Ext] {b s : List Char} {sub : Sub} {t : Ty} (hb : b ≠ [] ∧ b.all isAlph = true)
    (hs : DerivesSub sub s) (hn : sub.numsOk = true)
    (ht : baseTy (normBase b sub).1 (normBase b sub).2 = some t) :
    ∃ a, Derives a (b ++ s) ∧ a.numsOk = true ∧ meaning (normTy a) = some t := by
  refine ⟨_, derives_base hb hs, ?_, ?_⟩
  · simp [ABIType.numsOk, hn, arrNumsOk]
  · simp [normTy, meaning, ht, wrapDims]

theorem spells_parsed [Ext] {s : TypeStr} {t : Ty} (h : Spells true s t) :
    ∃ a, Derives a s ∧ a.numsOk = true ∧ meaning (normTy a) = some t := by
  have num : ∀ {n}, 0 < n → Numeral n (natDigits n) := fun hn => numeral_natDigits _ hn
  refine Spells.rec
    (motive_1 := fun s t _ => ∃ a, Derives a s ∧ a.numsOk = true ∧ meaning (normTy a) = some t)
    (motive_2 := fun s ts _ => ∃ cs, DerivesComps cs s ∧ ABIType.allNumsOk cs = true ∧
      meanings (normTys cs) = some ts)
    ?_ ?_ ?_ ?_ ?_ ?_ ?_ ?_ ?_ ?_ ?_ ?_ ?_ ?_ ?_ ?_ ?_ ?_ ?_ ?_ ?_ h
  · intro n hn
    have h0 := validBits_pos hn
    exact basic_bridge (by decide) (.one (num h0.1)) (numOk_of_lt h0.2) (by simp [normBase, baseTy, subInt, subFixed, subBytes, hn])
  · intro n hn
    have h0 := validBits_pos hn
    exact basic_bridge (by decide) (.one (num h0.1)) (numOk_of_lt h0.2) (by simp [normBase, baseTy, subInt, subFixed, subBytes, hn])
  · exact List.append_nil t!"uint" ▸ basic_bridge (by decide) .none rfl rfl
  · exact List.append_nil t!"int" ▸ basic_bridge (by decide) .none rfl rfl
  · exact List.append_nil t!"address" ▸ basic_bridge (by decide) .none rfl rfl
  · exact List.append_nil t!"bool" ▸ basic_bridge (by decide) .none rfl rfl
  · intro sub s _ hs hn
    refine basic_bridge (by decide) hs hn ?_
    cases sub <;> rfl
  · intro m n hm h1 h2
    have h0 := validBits_pos hm
    have h3 : n < 1000 := by omega
    have := basic_bridge (b := t!"ufixed") (t := .ufixed m n) (by decide) (.two (num h0.1) (num h1))
      (by simp [Sub.numsOk, numOk_of_lt h0.2, numOk_of_lt h3]) (by simp [normBase, baseTy, subInt, subFixed, subBytes, hm, h1, h2])
    simpa using this
  · intro m n hm h1 h2
    have h0 := validBits_pos hm
    have h3 : n < 1000 := by omega
    have := basic_bridge (b := t!"fixed") (t := .fixed m n) (by decide) (.two (num h0.1) (num h1))
      (by simp [Sub.numsOk, numOk_of_lt h0.2, numOk_of_lt h3]) (by simp [normBase, baseTy, subInt, subFixed, subBytes, hm, h1, h2])
    simpa using this
  · exact List.append_nil t!"ufixed" ▸ basic_bridge (by decide) .none rfl rfl
  · exact List.append_nil t!"fixed" ▸ basic_bridge (by decide) .none rfl rfl
  · intro m h1 h2
    exact basic_bridge (by decide) (.one (num h1)) (numOk_of_lt (by omega))
      (by simp [normBase, baseTy, subInt, subFixed, subBytes, h1, h2])
  · exact List.append_nil t!"byte" ▸ basic_bridge (by decide) .none rfl rfl
  · exact List.append_nil t!"function" ▸ basic_bridge (by decide) .none rfl rfl
  · exact List.append_nil t!"bytes" ▸ basic_bridge (by decide) .none rfl rfl
  · exact List.append_nil t!"string" ▸ basic_bridge (by decide) .none rfl rfl
  · rintro s t k _ hk hn ⟨a, ha, hna, hm⟩
    refine ⟨addDim a (some k), ?_, ?_, ?_⟩
    · have := derives_addDim ha (dims_one hk)
      simpa using this
    · rw [numsOk_addDim, hna]; simp [arrNumsOk, hn]
    · rw [normTy_addDim, meaning_addDim, hm]; rfl
  · rintro s t _ ⟨a, ha, hna, hm⟩
    refine ⟨addDim a none, ?_, ?_, ?_⟩
    · exact derives_addDim ha (DerivesDims.dynamic DerivesDims.nil)
    · rw [numsOk_addDim, hna]; simp [arrNumsOk]
    · rw [normTy_addDim, meaning_addDim, hm]; rfl
  · rintro s ts _ ⟨cs, hc, hn, hm⟩
    refine ⟨.tuple cs [], ?_, ?_, ?_⟩
    · have := Derives.tuple hc DerivesDims.nil
      simpa using this
    · simp [ABIType.numsOk, hn, arrNumsOk]
    · simp [normTy, meaning, hm, wrapDims]
  · rintro s t _ ⟨a, ha, hna, hm⟩
    refine ⟨[a], .one ha, by simp [ABIType.allNumsOk, hna], by simp [normTys, meanings, hm]⟩
  · rintro s s' t ts _ _ ⟨a, ha, hna, hm⟩ ⟨cs, hc, hn, hms⟩
    exact ⟨a :: cs, .cons ha hc, by simp [ABIType.allNumsOk, hna, hn], by simp [normTys, meanings, hm, hms]⟩

theorem spells_base [Ext] {b : List Char} {sub : Sub} {s : List Char} {t : Ty}
    (hs : DerivesSub sub s) (hn : sub.numsOk = true)
    (ht : baseTy (normBase b sub).1 (normBase b sub).2 = some t) : Spells true (b ++ s) t := by
  cases hs with
  | none =>
    rw [List.append_nil]
    by_cases h1 : b = t!"int"; · subst h1; cases ht; exact .int256
    by_cases h2 : b = t!"uint"; · subst h2; cases ht; exact .uint256
    by_cases h3 : b = t!"fixed"; · subst h3; cases ht; exact .fixed128x18
    by_cases h4 : b = t!"ufixed"; · subst h4; cases ht; exact .ufixed128x18
    by_cases h5 : b = t!"function"; · subst h5; cases ht; exact .function
    by_cases h6 : b = t!"byte"; · subst h6; cases ht; exact .byte
    by_cases h7 : b = t!"address"; · subst h7; cases ht; exact .address
    by_cases h8 : b = t!"bool"; · subst h8; cases ht; exact .bool
    by_cases h9 : b = t!"bytes"; · subst h9; cases ht; exact .bytes
    by_cases h10 : b = t!"string"; · subst h10; cases ht; exact .string
    rw [normBase, if_neg h1, if_neg h2, if_neg h3, if_neg h4, if_neg h5, if_neg h6, baseTy,
      if_neg h2, if_neg h1, if_neg h7, if_neg h8, if_neg h4, if_neg h3, if_neg h9, if_neg h10] at ht
    cases ht
  | @one n s h =>
    rw [normBase_of_sub (by simp)] at ht
    rw [(numeral_iff.1 h).2]
    have h0 := (numeral_iff.1 h).1
    by_cases h1 : b = t!"int"
    · subst h1; simp [baseTy, subInt, subFixed, subBytes] at ht; obtain ⟨h, rfl⟩ := ht; exact .int h
    by_cases h2 : b = t!"uint"
    · subst h2; simp [baseTy, subInt, subFixed, subBytes] at ht; obtain ⟨h, rfl⟩ := ht; exact .uint h
    by_cases h3 : b = t!"fixed"; · subst h3; cases ht
    by_cases h4 : b = t!"ufixed"; · subst h4; cases ht
    by_cases h7 : b = t!"address"; · subst h7; cases ht
    by_cases h8 : b = t!"bool"
    · subst h8; cases ht
      exact .boolSub rfl (.one (numeral_natDigits n h0)) hn
    by_cases h9 : b = t!"bytes"
    · subst h9; simp [baseTy, subInt, subFixed, subBytes] at ht; obtain ⟨⟨h1, h2⟩, rfl⟩ := ht; exact .bytesM h1 h2
    by_cases h10 : b = t!"string"; · subst h10; cases ht
    rw [baseTy, if_neg h2, if_neg h1, if_neg h7, if_neg h8, if_neg h4, if_neg h3, if_neg h9,
      if_neg h10] at ht
    cases ht
  | @two m n s s' h h' =>
    rw [normBase_of_sub (by simp)] at ht
    rw [(numeral_iff.1 h).2, (numeral_iff.1 h').2]
    by_cases h1 : b = t!"int"; · subst h1; cases ht
    by_cases h2 : b = t!"uint"; · subst h2; cases ht
    by_cases h3 : b = t!"fixed"
    · subst h3; simp [baseTy, subInt, subFixed, subBytes] at ht; obtain ⟨⟨h, h0, h1⟩, rfl⟩ := ht
      have := Spells.fixed (lax := true) h h0 h1
      simpa using this
    by_cases h4 : b = t!"ufixed"
    · subst h4; simp [baseTy, subInt, subFixed, subBytes] at ht; obtain ⟨⟨h, h0, h1⟩, rfl⟩ := ht
      have := Spells.ufixed (lax := true) h h0 h1
      simpa using this
    by_cases h7 : b = t!"address"; · subst h7; cases ht
    by_cases h8 : b = t!"bool"
    · subst h8; cases ht
      exact .boolSub rfl (.two (numeral_natDigits m (numeral_iff.1 h).1)
        (numeral_natDigits n (numeral_iff.1 h').1)) hn
    by_cases h9 : b = t!"bytes"; · subst h9; cases ht
    by_cases h10 : b = t!"string"; · subst h10; cases ht
    rw [baseTy, if_neg h2, if_neg h1, if_neg h7, if_neg h8, if_neg h4, if_neg h3, if_neg h9,
      if_neg h10] at ht
    cases ht

theorem spells_dims [Ext] {ds : List (Option Nat)} {w : List Char} (h : DerivesDims ds w) :
    ∀ {s : TypeStr} {t : Ty}, Spells true s t → arrNumsOk ds = true →
      Spells true (s ++ w) (wrapDims t ds) := by
  induction h with
  | nil => intro s t hs _; simpa [wrapDims] using hs
  | @dynamic ds w _ ih =>
    intro s t hs hn
    have := ih (Spells.dyn hs) (by simpa [arrNumsOk] using hn)
    simpa [wrapDims, wrapDim] using this
  | @sized ds n w v hv _ ih =>
    intro s t hs hn
    simp only [arrNumsOk, List.all_cons, Bool.and_eq_true] at hn
    rw [(numeral_iff.1 hv).2]
    have := ih (Spells.sized hs (numeral_iff.1 hv).1 hn.1) (by simpa [arrNumsOk] using hn.2)
    simpa [wrapDims, wrapDim] using this

theorem parsed_spells [Ext] {a : ABIType} {s : TypeStr} (h : Derives a s) :
    ∀ {t}, a.numsOk = true → meaning (normTy a) = some t → Spells true s t := by
  refine Derives.rec
    (motive_1 := fun a s _ => ∀ {t}, a.numsOk = true → meaning (normTy a) = some t → Spells true s t)
    (motive_2 := fun cs s _ => ∀ {ts}, ABIType.allNumsOk cs = true → meanings (normTys cs) = some ts →
      SpellsComps true s ts) ?_ ?_ ?_ ?_ h
  · intro base s1 s2 sub arr _ _ h1 h2 t hn hm
    simp only [ABIType.numsOk, Bool.and_eq_true] at hn
    simp only [normTy, meaning, Option.map_eq_some_iff] at hm
    obtain ⟨t0, h0, rfl⟩ := hm
    exact spells_dims h2 (spells_base h1 hn.1 h0) hn.2
  · intro comps s1 s2 arr _ h2 ih t hn hm
    simp only [ABIType.numsOk, Bool.and_eq_true] at hn
    simp only [normTy, meaning, Option.map_eq_some_iff] at hm
    obtain ⟨ts, h0, rfl⟩ := hm
    exact spells_dims h2 (.tuple (ih hn.1 h0)) hn.2
  · intro c s _ ih ts hn hm
    simp only [ABIType.allNumsOk, Bool.and_true] at hn
    simp only [normTys, meanings] at hm
    cases hc : meaning (normTy c) with
    | none => rw [hc] at hm; cases hm
    | some t => rw [hc] at hm; cases hm; exact .one (ih hn hc)
  · intro c cs s s' _ _ ih ih' ts hn hm
    simp only [ABIType.allNumsOk, Bool.and_eq_true] at hn
    simp only [normTys, meanings] at hm
    cases hc : meaning (normTy c) with
    | none => rw [hc] at hm; cases hm
    | some t =>
      cases hcs : meanings (normTys cs) with
      | none => rw [hc, hcs] at hm; cases hm
      | some ts' => rw [hc, hcs] at hm; cases hm; exact .cons (ih hn.1 hc) (ih' hn.2 hcs)

/-- The names of types are the strings whose parsed form has a type. -/
theorem spells_iff [Ext] {s : TypeStr} {t : Ty} :
    Spells true s t ↔ ∃ a, Derives a s ∧ a.numsOk = true ∧ meaning (normTy a) = some t :=
  ⟨spells_parsed, fun ⟨_, h1, h2, h3⟩ => parsed_spells h1 h2 h3⟩

/-- A string names at most one type. -/
theorem spells_unique [Ext] {s : TypeStr} {t u : Ty} (h : Spells true s t) (h' : Spells true s u) :
    t = u := by
  obtain ⟨a, h1, _, h2⟩ := spells_parsed h
  obtain ⟨b, h3, _, h4⟩ := spells_parsed h'
  cases derives_unique h1 h3
  rw [h2] at h4
  exact Option.some.inj h4

theorem baseTy_valid {b : List Char} {sub : Sub} {t : Ty} (h : baseTy b sub = some t) : t.Valid := by
  unfold baseTy subInt subFixed subNone subBytes at h
  repeat' split at h
  all_goals first | (cases h; done) | skip
  all_goals (injection h with h; subst h; first | trivial | assumption)

/-- Named types are valid. -/
theorem spells_valid [Ext] {lax : Bool} {s : TypeStr} {t : Ty} (h : Spells lax s t) : t.Valid := by
  refine Spells.rec (motive_1 := fun _ t _ => t.Valid)
    (motive_2 := fun _ ts _ => ts ≠ [] ∧ Ty.AllValid ts)
    ?_ ?_ ?_ ?_ ?_ ?_ ?_ ?_ ?_ ?_ ?_ ?_ ?_ ?_ ?_ ?_ ?_ ?_ ?_ ?_ ?_ h
  · exact fun h => h
  · exact fun h => h
  · exact (by decide : validBits 256)
  · exact (by decide : validBits 256)
  · trivial
  · trivial
  · intros; trivial
  · exact fun h1 h2 h3 => ⟨h1, h2, h3⟩
  · exact fun h1 h2 h3 => ⟨h1, h2, h3⟩
  · exact (by decide : validBits 128 ∧ 0 < 18 ∧ 18 ≤ 80)
  · exact (by decide : validBits 128 ∧ 0 < 18 ∧ 18 ≤ 80)
  · exact fun h1 h2 => ⟨h1, h2⟩
  · exact (by decide : 0 < 1 ∧ 1 ≤ 32)
  · exact (by decide : 0 < 24 ∧ 24 ≤ 32)
  · trivial
  · trivial
  · exact fun _ hk _ ih => ⟨hk, ih⟩
  · exact fun _ ih => ih
  · exact fun _ ih => ih
  · exact fun _ ih => ⟨by simp, ih, trivial⟩
  · exact fun _ _ ih ih' => ⟨by simp, ih, ih'.2⟩

end EthAbi
