import Verif.Lemmas.ThreadAlone

/-! # Threads: a call that changes a registry reads and writes nothing else -/
namespace EthAbi.Thr
open Spec

theorem local_read {R : Type} {r : Nat} {next : Heap → Prog R}
    (he : ∀ h h', Sh r h → Sh r h' → h.world.view r = h'.world.view r → next h = next h')
    (hn : ∀ h, Sh r h → Local r (next h)) : Local r (.read next) :=
  ⟨fun _ hs => hs, fun h h' hs hs' hv => ⟨hv, he h h' hs hs' hv⟩, hn⟩

theorem local_write {R : Type} {r : Nat} {f : Heap → Heap} {next : Prog R}
    (hs : ∀ h, Sh r h → Sh r (f h))
    (hf : ∀ h h', Sh r h → Sh r h' → h.world.view r = h'.world.view r →
      (f h).world.view r = (f h').world.view r) (hn : Local r next) : Local r (.write f next) :=
  ⟨hs, fun h h' a b c => ⟨hf h h' a b c, rfl⟩, fun _ _ => hn⟩

theorem sh_touch {r : Nat} {h h' : Heap} {v : View} (hs : Sh r h) (ht : Touch h.world h'.world r v) :
    Sh r h' := ⟨ht.shape hs.shape, by rw [ht.regs]; exact hs.len⟩

section
variable {V : Type} {r : Nat} {c : Cells V} {get : View → Mapping V}

theorem sh_setVals (hc : CellsAt c r get) (vs : List (Pred × V)) {h : Heap} (hs : Sh r h) :
    Sh r (c.setVals vs h) := by
  obtain ⟨v, hv, _⟩ := hc.setVals vs h
  exact sh_touch hs hv

theorem sh_setLabels (hc : CellsAt c r get) (ls : List (List Char × Pred)) {h : Heap} (hs : Sh r h) :
    Sh r (c.setLabels ls h) := by
  obtain ⟨v, hv, _⟩ := hc.setLabels ls h
  exact sh_touch hs hv

theorem vals_eq (hc : CellsAt c r get) {h h' : Heap} (hv : h.world.view r = h'.world.view r) :
    c.vals h = c.vals h' := by rw [hc.vals, hc.vals, hv]

theorem labels_eq (hc : CellsAt c r get) {h h' : Heap} (hv : h.world.view r = h'.world.view r) :
    c.labels h = c.labels h' := by rw [hc.labels, hc.labels, hv]

theorem view_setVals (hc : CellsAt c r get) (vs : List (Pred × V)) {h h' : Heap}
    (hv : h.world.view r = h'.world.view r) :
    (c.setVals vs h).world.view r = (c.setVals vs h').world.view r := by
  obtain ⟨v, ht, hh⟩ := hc.setVals vs h
  rw [hh h' hv.symm]; exact ht.here

theorem view_setLabels (hc : CellsAt c r get) (ls : List (List Char × Pred)) {h h' : Heap}
    (hv : h.world.view r = h'.world.view r) :
    (c.setLabels ls h).world.view r = (c.setLabels ls h').world.view r := by
  obtain ⟨v, ht, hh⟩ := hc.setLabels ls h
  rw [hh h' hv.symm]; exact ht.here

theorem local_putVals (hc : CellsAt c r get) (F : List (Pred × V) → List (Pred × V))
    {next : Prog (PyM Unit)} (hn : Local r next) :
    Local r (.write (fun h => c.setVals (F (c.vals h)) h) next) :=
  local_write (fun h hs => sh_setVals hc _ hs)
    (fun h h' _ _ hv => by rw [vals_eq hc hv]; exact view_setVals hc _ hv) hn

theorem local_putLabels (hc : CellsAt c r get)
    (F : List (List Char × Pred) → List (List Char × Pred))
    {next : Prog (PyM Unit)} (hn : Local r next) :
    Local r (.write (fun h => c.setLabels (F (c.labels h)) h) next) :=
  local_write (fun h hs => sh_setLabels hc _ hs)
    (fun h h' _ _ hv => by rw [labels_eq hc hv]; exact view_setLabels hc _ hv) hn

theorem local_add (hc : CellsAt c r get) (p : Pred) (v : V) (label : Option (List Char)) :
    Local r (addProg c p v label) := by
  refine local_read (fun h h' _ _ hv => by rw [vals_eq hc hv]) fun h _ => ?_
  split
  · trivial
  · cases label with
    | none => exact local_putVals hc _ trivial
    | some l =>
      refine local_read (fun h h' _ _ hv => by rw [labels_eq hc hv]) fun h _ => ?_
      split
      · trivial
      · exact local_putLabels hc _ (local_putVals hc _ trivial)

theorem local_delVal (hc : CellsAt c r get) (p : Pred) {next : Prog (PyM Unit)}
    (hn : Local r next) : Local r (delVal c p next) := by
  refine ⟨fun h hs => ?_, fun h h' _ _ hv => ?_, fun h _ => ?_⟩
  · beta_reduce
    cases Mapping.delPred p (c.vals h) with
    | none => exact hs
    | some vs => exact sh_setVals hc vs hs
  · beta_reduce
    rw [vals_eq hc hv]
    refine ⟨?_, rfl⟩
    cases Mapping.delPred p (c.vals h') with
    | none => exact hv
    | some vs => exact view_setVals hc vs hv
  · beta_reduce
    cases Mapping.delPred p (c.vals h) with
    | none => trivial
    | some vs => exact hn

theorem local_register (hc : CellsAt c r get) (l : LookupArg) (v : V) (label : Option (List Char)) :
    Local r (registerProg c l v label) := by
  cases l with
  | pred p => exact local_add hc p v label
  | str s i => exact local_add hc ⟨i, .equals s⟩ v (some s)
  | other => trivial

theorem local_unregister (hc : CellsAt c r get) (l : LookupArg) : Local r (unregisterProg c l) := by
  cases l with
  | pred p => exact local_delVal hc p (local_putLabels hc _ trivial)
  | str s i =>
    refine local_read (fun h h' _ _ hv => by rw [labels_eq hc hv]) fun h _ => ?_
    cases (c.labels h).lookup s with
    | none => trivial
    | some p =>
      refine ⟨fun h hs => sh_setLabels hc _ hs, fun h h' _ _ hv => ?_, fun h _ => ?_⟩
      · beta_reduce
        rw [labels_eq hc hv]
        exact ⟨view_setLabels hc _ hv, rfl⟩
      · beta_reduce
        split
        · exact local_delVal hc p trivial
        · trivial
  | other => trivial
end

theorem local_onReg {α : Type} {r : Nat} {f : RegObj → Prog (PyM α)} (hf : Local r (f (objAt r))) :
    Local r (onReg r f) := by
  refine local_read (fun h h' hs hs' _ => ?_) fun h hs => ?_
  · rw [hs.shape.obj r hs.len, hs'.shape.obj r hs'.len]
  · rw [hs.shape.obj r hs.len]; exact hf

theorem local_clearEnc {r : Nat} {next : Prog (PyM Unit)} (hn : Local r next) :
    Local r (.write (clearEnc (objAt r)) next) :=
  local_write (fun h hs => sh_touch hs (touch_clearEnc h.world r))
    (fun h h' _ _ hv => (touch_clearEnc h.world r).here.trans
      ((touch_clearEnc h'.world r).here.trans (by rw [hv])).symm) hn

theorem local_clearDec {r : Nat} {next : Prog (PyM Unit)} (hn : Local r next) :
    Local r (.write (clearDec (objAt r)) next) :=
  local_write (fun h hs => sh_touch hs (touch_clearDec h.world r))
    (fun h h' _ _ hv => (touch_clearDec h.world r).here.trans
      ((touch_clearDec h'.world r).here.trans (by rw [hv])).symm) hn

theorem local_program [Ext] {r : Nat} (fuel : Nat) (op : Op) (hc : changes op = some r) :
    Local r (program fuel op) := by
  have as : ∀ {α : Type} {f : PyM α → Res} {p : Prog (PyM α)}, Local r p → Local r (p.as f) :=
    fun hp => local_bind _ hp fun _ => trivial
  have re : ∀ l e label, Local r (registerEncoder r l e label) := fun l e label =>
    local_onReg (local_clearEnc (local_register (encCellsAt r) l e label))
  have ue : ∀ l, Local r (unregisterEncoder r l) := fun l =>
    local_onReg (local_clearEnc (local_unregister (encCellsAt r) l))
  have rd : ∀ l d label, Local r (registerDecoder r l d label) := fun l d label =>
    local_onReg (local_clearDec (local_register (decCellsAt r) l d label))
  have ud : ∀ l, Local r (unregisterDecoder r l) := fun l =>
    local_onReg (local_clearDec (local_unregister (decCellsAt r) l))
  cases op <;> (try cases hc)
  · exact as (re _ _ _)
  · exact as (ue _)
  · exact as (rd _ _ _)
  · exact as (ud _)
  · exact as (local_andThen (re _ _ _) fun _ => rd _ _ _)
  · exact as (local_andThen (ue _) fun _ => ud _)

/-- The outcome and the effect of a change, alone. -/
theorem change_alone [Ext] {r : Nat} (fuel : Nat) (op : Op) (hc : changes op = some r) {h : Heap}
    (hs : Sh r h) (hg : (h.world.view r).Good) :
    Determined (h.world.view r).reg fuel op ((program fuel op).exec h).1 ∧
      (((program fuel op).exec h).2.world.view r).reg = effect op (h.world.view r).reg ∧
      (((program fuel op).exec h).2.world.view r).Good := by
  obtain ⟨h1, h2⟩ := program_alone fuel op hs.shape
  rw [h1, h2]
  have hw := hs.shape
  have hr := hs.len
  clear h1 h2
  cases op <;> (try cases hc)
  case registerEncoder l e label =>
    obtain ⟨a, b⟩ := mutEnc hw hr (fun m => m.register l e label)
      (x := h.world.registerEncoder r l e label) rfl
    refine ⟨a, ?_, ?_⟩
    · show ((h.world.registerEncoder r l e label).2.view r).reg = _
      rw [b.here]; rfl
    · show ((h.world.registerEncoder r l e label).2.view r).Good
      rw [b.here]; exact ⟨encCacheOk_nil _, hg.dec⟩
  case unregisterEncoder l =>
    obtain ⟨a, b⟩ := mutEnc hw hr (fun m => m.unregister l)
      (x := h.world.unregisterEncoder r l) rfl
    refine ⟨a, ?_, ?_⟩
    · show ((h.world.unregisterEncoder r l).2.view r).reg = _
      rw [b.here]; rfl
    · show ((h.world.unregisterEncoder r l).2.view r).Good
      rw [b.here]; exact ⟨encCacheOk_nil _, hg.dec⟩
  case registerDecoder l d label =>
    obtain ⟨a, b⟩ := mutDec hw hr (fun m => m.register l d label)
      (x := h.world.registerDecoder r l d label) rfl
    refine ⟨a, ?_, ?_⟩
    · show ((h.world.registerDecoder r l d label).2.view r).reg = _
      rw [b.here]; rfl
    · show ((h.world.registerDecoder r l d label).2.view r).Good
      rw [b.here]; exact ⟨hg.enc, decCacheOk_nil _⟩
  case unregisterDecoder l =>
    obtain ⟨a, b⟩ := mutDec hw hr (fun m => m.unregister l)
      (x := h.world.unregisterDecoder r l) rfl
    refine ⟨a, ?_, ?_⟩
    · show ((h.world.unregisterDecoder r l).2.view r).reg = _
      rw [b.here]; rfl
    · show ((h.world.unregisterDecoder r l).2.view r).Good
      rw [b.here]; exact ⟨hg.enc, decCacheOk_nil _⟩
  case register l e d label =>
    obtain ⟨a, b⟩ := mutEnc hw hr (fun m => m.register l e label)
      (x := h.world.registerEncoder r l e label) rfl
    show (h.world.register r l e d label).1 = _ ∧ ((h.world.register r l e d label).2.view r).reg = _ ∧
      ((h.world.register r l e d label).2.view r).Good
    unfold World.register
    simp only [effect]
    rcases hx : h.world.registerEncoder r l e label with ⟨x, w⟩
    rw [hx] at a b
    simp only at a b
    rw [← a]
    cases x with
    | error e =>
      refine ⟨rfl, ?_, ?_⟩
      · simp only; rw [b.here]; rfl
      · simp only; rw [b.here]; exact ⟨encCacheOk_nil _, hg.dec⟩
    | ok u =>
      obtain ⟨a', b'⟩ := mutDec (b.shape hw) (by rw [b.regs]; exact hr)
        (fun m => m.register l d label) (x := w.registerDecoder r l d label) rfl
      rw [b.here] at a' b'
      refine ⟨a', ?_, ?_⟩
      · simp only; rw [b'.here]; rfl
      · simp only; rw [b'.here]; exact ⟨encCacheOk_nil _, decCacheOk_nil _⟩
  case unregister l =>
    obtain ⟨a, b⟩ := mutEnc hw hr (fun m => m.unregister l)
      (x := h.world.unregisterEncoder r l) rfl
    show (h.world.unregister r l).1 = _ ∧ ((h.world.unregister r l).2.view r).reg = _ ∧
      ((h.world.unregister r l).2.view r).Good
    unfold World.unregister
    simp only [effect]
    rcases hx : h.world.unregisterEncoder r l with ⟨x, w⟩
    rw [hx] at a b
    simp only at a b
    rw [← a]
    cases x with
    | error e =>
      refine ⟨rfl, ?_, ?_⟩
      · simp only; rw [b.here]; rfl
      · simp only; rw [b.here]; exact ⟨encCacheOk_nil _, hg.dec⟩
    | ok u =>
      obtain ⟨a', b'⟩ := mutDec (b.shape hw) (by rw [b.regs]; exact hr)
        (fun m => m.unregister l) (x := w.unregisterDecoder r l) rfl
      rw [b.here] at a' b'
      refine ⟨a', ?_, ?_⟩
      · simp only; rw [b'.here]; rfl
      · simp only; rw [b'.here]; exact ⟨encCacheOk_nil _, decCacheOk_nil _⟩

end EthAbi.Thr
