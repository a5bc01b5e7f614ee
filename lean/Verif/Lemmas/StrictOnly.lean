import Verif.Lemmas.Calls

/-! # Histories without `strict=False` leave every attribute `strict` at `True` -/
namespace EthAbi
open Spec

/-- Every attribute `strict` is `True`. -/
def AllStrict (fl : Flags) : Prop := ∀ i, fl i = true

theorem execS_keeps {C σ : Type} {P : σ → Prop} {look : TypeStr → σ → PyM C × σ}
    (hl : ∀ s st, P st → P (look s st).2) (p : Plan C) : ∀ st, P st → P (p.execS look st).2 := by
  induction p with
  | ret r => intro st h; exact h
  | ask s k ih =>
    intro st h
    rw [Plan.execS]
    have := hl s st h
    generalize look s st = q at this ⊢
    obtain ⟨r, st'⟩ := q
    cases r with
    | ok c => exact ih c st' this
    | error e => exact this

theorem mapS_keeps {α β σ : Type} {P : σ → Prop} {f : α → σ → PyM β × σ}
    (hf : ∀ x st, P st → P (f x st).2) (xs : List α) : ∀ st, P st → P (mapS f xs st).2 := by
  induction xs with
  | nil => intro st h; exact h
  | cons x xs ih =>
    intro st h
    rw [mapS]
    have h1 := hf x st h
    generalize f x st = q at h1 ⊢
    obtain ⟨r, st'⟩ := q
    cases r with
    | error e => exact h1
    | ok y =>
      have h2 := ih st' h1
      simp only
      generalize mapS f xs st' = q at h2 ⊢
      obtain ⟨r, st''⟩ := q
      cases r <;> exact h2

theorem writeStrict_keeps (d : Decoder) {fl : Flags} (h : AllStrict fl) : AllStrict (writeStrict d true fl) := by
  intro i
  unfold writeStrict
  split
  · cases d.strict with
    | own b => exact h i
    | shared j =>
      show setCell fl j true i = true
      unfold setCell; split
      · rfl
      · exact h i
  · exact h i

theorem cachedDecoder_keeps [Ext] (m : Mapping (Reg Decoder)) : ∀ (fuel : Nat) (s : TypeStr) (a : StrictArg)
    (st : DecCache × Flags), a.value = true → AllStrict st.2 → AllStrict (cachedDecoder m fuel s a st).2.2 := by
  intro fuel
  induction fuel with
  | zero => intro s a st _ h; exact h
  | succ fuel ih =>
    rintro s a ⟨c, fl⟩ ha h
    rw [cachedDecoder]
    cases c.lookup (s, a) with
    | some d => exact h
    | none =>
      simp only
      cases m.getRegistration s with
      | error x => exact h
      | ok v =>
        cases v with
        | obj d => simp only [ha]; exact writeStrict_keeps d h
        | cls plan =>
          have := execS_keeps (P := fun st : DecCache × Flags => AllStrict st.2)
            (fun s st h => ih s .absent st rfl h) (plan s) (c, fl) h
          simp only
          generalize (plan s).execS (fun s' => cachedDecoder m fuel s' .absent) (c, fl) = q at this ⊢
          obtain ⟨r, c', fl'⟩ := q
          cases r with
          | error e => exact this
          | ok d => simp only [ha]; exact writeStrict_keeps d this

theorem onReg_flags {α : Type} {w : World} {r : Nat} {f : RegObj → PyM α × World}
    (hf : ∀ o, AllStrict (f o).2.flags) (h : AllStrict w.flags) : AllStrict (w.onReg r f).2.flags := by
  unfold World.onReg
  split
  · exact h
  · exact hf _

theorem getDecoder_keeps [Ext] (fuel r : Nat) (s : TypeStr) (a : StrictArg) (ha : a.value = true) (w : World)
    (h : AllStrict w.flags) : AllStrict (w.getDecoder fuel r s a).2.flags :=
  onReg_flags (fun _ => cachedDecoder_keeps _ fuel s a (_, w.flags) ha h) h

theorem getEncoder_keeps [Ext] (fuel r : Nat) (s : TypeStr) (w : World)
    (h : AllStrict w.flags) : AllStrict (w.getEncoder fuel r s).2.flags :=
  onReg_flags (fun _ => h) h

theorem decode_keeps [Ext] (fuel r : Nat) (types : List TypeStr) (data : PyVal) (w : World)
    (h : AllStrict w.flags) : AllStrict (w.decode fuel r types data true).2.flags := by
  unfold World.decode
  cases validateBytesParam data with
  | error e => exact h
  | ok b =>
    have := mapS_keeps (P := fun w : World => AllStrict w.flags)
      (fun s w h => getDecoder_keeps fuel r s (.kw true) rfl w h) types w h
    simp only
    generalize mapS (fun s (w : World) => w.getDecoder fuel r s (.kw true)) types w = q at this ⊢
    obtain ⟨ds, w'⟩ := q
    cases ds with
    | error e => exact this
    | ok ds =>
      simp only at this ⊢
      split <;> exact this

theorem hasEncoder_keeps [Ext] (fuel r : Nat) (s : TypeStr) (w : World)
    (h : AllStrict w.flags) : AllStrict (w.hasEncoder fuel r s).2.flags := by
  unfold World.hasEncoder
  have := getEncoder_keeps fuel r s w h
  generalize w.getEncoder fuel r s = q at this ⊢
  obtain ⟨x, w'⟩ := q
  split <;> simp_all

theorem step_keeps [Ext] (fuel : Nat) (op : Op) (hop : OnlyStrict [(fuel, op)]) (w : World)
    (h : AllStrict w.flags) : AllStrict (w.step fuel op).flags := by
  have hop := hop _ (List.mem_singleton_self _)
  have hre : ∀ r l e label, AllStrict (w.registerEncoder r l e label).2.flags :=
    fun r l e label => onReg_flags (fun _ => h) h
  have hue : ∀ r l, AllStrict (w.unregisterEncoder r l).2.flags :=
    fun r l => onReg_flags (fun _ => h) h
  have hrd : ∀ (w : World) r l d label, AllStrict w.flags → AllStrict (w.registerDecoder r l d label).2.flags :=
    fun w r l d label h => onReg_flags (fun _ => h) h
  have hud : ∀ (w : World) r l, AllStrict w.flags → AllStrict (w.unregisterDecoder r l).2.flags :=
    fun w r l h => onReg_flags (fun _ => h) h
  cases op with
  | new => exact h
  | copy r =>
    show AllStrict (w.copy r).flags
    unfold World.copy
    split <;> exact h
  | registerEncoder r l e label => exact hre r l e label
  | unregisterEncoder r l => exact hue r l
  | registerDecoder r l d label => exact hrd w r l d label h
  | unregisterDecoder r l => exact hud w r l h
  | register r l e d label =>
    show AllStrict (w.register r l e d label).2.flags
    have := hre r l e label
    unfold World.register
    generalize w.registerEncoder r l e label = q at this ⊢
    obtain ⟨x, w'⟩ := q
    cases x with
    | ok _ => exact hrd w' r l d label this
    | error e => exact this
  | unregister r l =>
    show AllStrict (w.unregister r l).2.flags
    have := hue r l
    unfold World.unregister
    generalize w.unregisterEncoder r l = q at this ⊢
    obtain ⟨x, w'⟩ := q
    cases x with
    | ok _ => exact hud w' r l this
    | error e => exact this
  | getEncoder r s => exact getEncoder_keeps fuel r s w h
  | getDecoder r s a => exact getDecoder_keeps fuel r s a hop w h
  | hasEncoder r s => exact hasEncoder_keeps fuel r s w h
  | encode r types args =>
    show AllStrict (w.encode fuel r types args).2.flags
    unfold World.encode
    cases validateListLikeParam args with
    | error e => exact h
    | ok _ =>
      have := mapS_keeps (P := fun w : World => AllStrict w.flags)
        (fun s w h => getEncoder_keeps fuel r s w h) types w h
      simp only
      generalize mapS (fun s (w : World) => w.getEncoder fuel r s) types w = q at this ⊢
      obtain ⟨ds, w'⟩ := q
      cases ds <;> exact this
  | isEncodable r s v =>
    show AllStrict (w.isEncodable fuel r s v).2.flags
    unfold World.isEncodable
    have h1 := hasEncoder_keeps fuel r s w h
    generalize w.hasEncoder fuel r s = q at h1 ⊢
    obtain ⟨x, w'⟩ := q
    match x with
    | .error e => exact h1
    | .ok false => exact h1
    | .ok true =>
      have h2 := getEncoder_keeps fuel r s w' h1
      simp only
      generalize w'.getEncoder fuel r s = q at h2 ⊢
      obtain ⟨y, w''⟩ := q
      cases y <;> exact h2
  | decode r types data strict =>
    simp only at hop
    subst hop
    exact decode_keeps fuel r types data w h

theorem run_keeps [Ext] (h : History) (hs : OnlyStrict h) : ∀ w : World, AllStrict w.flags →
    AllStrict (w.run h).flags := by
  induction h with
  | nil => intro w hw; exact hw
  | cons c h ih =>
    obtain ⟨fuel, op⟩ := c
    intro w hw
    rw [World.run]
    exact ih (fun c hc => hs c (List.mem_cons_of_mem _ hc)) _
      (step_keeps fuel op (fun c hc => hs c (by rw [List.mem_singleton.1 hc]; exact List.mem_cons_self)) w hw)

theorem empty_keeps [Ext] (h : History) (hs : OnlyStrict h) : AllStrict (World.empty.run h).flags :=
  run_keeps h hs _ fun _ => rfl

end EthAbi
