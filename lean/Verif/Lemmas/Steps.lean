import Verif.Lemmas.Heap

/-! # Every call keeps the invariant and acts on the registrations as `Plain.step` says -/
namespace EthAbi
open Spec

/-- What a call does. -/
structure StepOk [Ext] (w w' : World) (op : Op) : Prop where
  inv : Inv w'
  plain : w'.plain = w.plain.step op
  other : ∀ i, i < w.regs.length → target op ≠ some i → w'.view i = w.view i
  grow : w.regs.length ≤ w'.regs.length

theorem encCacheOk_nil [Ext] (m : Mapping (Reg Encoder)) : EncCacheOk m [] := by
  intro s e h; cases h

theorem decCacheOk_nil [Ext] (m : Mapping (Reg Decoder)) : DecCacheOk m [] := by
  intro s a d h; cases h

/-- A new object at the end of the list. -/
theorem alloc_ok [Ext] {w w' : World} (hw : Inv w) {v : View} (hv : v.Good)
    (hn : w'.next = w.next + 6) (hr : w'.regs = w.regs ++ [objAt w.regs.length])
    (hv' : w'.view w.regs.length = v)
    (ho : ∀ i, i < w.regs.length → w'.view i = w.view i) :
    Inv w' ∧ w'.plain = w.plain ++ [v.reg] := by
  refine ⟨⟨⟨?_, ?_⟩, ?_⟩, ?_⟩
  · rw [hn, hr, hw.shape.next, List.length_append, List.length_singleton]; omega
  · intro i hi
    rw [hr] at hi ⊢
    rw [List.length_append, List.length_singleton] at hi
    by_cases h : i < w.regs.length
    · rw [List.getElem?_append_left h, hw.shape.obj i h]
    · have : i = w.regs.length := by omega
      subst this
      simp
  · intro i hi
    rw [hr, List.length_append, List.length_singleton] at hi
    by_cases h : i < w.regs.length
    · rw [ho i h]; exact hw.good i h
    · have : i = w.regs.length := by omega
      subst this
      rw [hv']; exact hv
  · unfold World.plain
    rw [hr, List.length_append, List.length_singleton, List.range_succ, List.map_append]
    congr 1
    · apply List.map_congr_left
      intro i hi
      rw [ho i (List.mem_range.1 hi)]
    · simp [hv']

theorem step_new [Ext] {w : World} (hw : Inv w) : StepOk w w.new .new := by
  have hn := hw.shape.next
  have ho : ∀ i, i < w.regs.length → w.new.view i = w.view i := by
    intro i hi
    have h0 : ¬ 6 * i = 6 * w.regs.length := by omega
    have h1 : ¬ 6 * i = 6 * w.regs.length + 2 := by omega
    have h2 : ¬ 6 * i + 3 = 6 * w.regs.length + 1 := by omega
    simp [World.view, World.new, setCell, hn, h0, h1, h2]
  obtain ⟨h1, h2⟩ := alloc_ok (w' := w.new) hw
    (v := ⟨⟨Mapping.empty, Mapping.empty⟩, [], []⟩) ⟨encCacheOk_nil _, decCacheOk_nil _⟩ rfl
    (by simp [World.new, objAt, hn])
    (by
      have h0 : ¬ 6 * w.regs.length = 6 * w.regs.length + 2 := by omega
      simp [World.view, World.new, setCell, hn, Mapping.empty]) ho
  exact ⟨h1, h2, fun i hi _ => ho i hi, by simp [World.new]⟩

theorem step_copy [Ext] {w : World} (hw : Inv w) (r : Nat) : StepOk w (w.copy r) (.copy r) := by
  have hn := hw.shape.next
  by_cases hr : r < w.regs.length
  · have hc : w.regs[r]? = some (objAt r) := hw.shape.obj r hr
    have ho : ∀ i, i < w.regs.length → (w.copy r).view i = w.view i := by
      intro i hi
      have h0 : ¬ 6 * i = 6 * w.regs.length := by omega
      have h1 : ¬ 6 * i = 6 * w.regs.length + 2 := by omega
      have h2 : ¬ 6 * i + 3 = 6 * w.regs.length + 1 := by omega
      simp [World.view, World.copy, hc, setCell, hn, h0, h1, h2]
    obtain ⟨h1, h2⟩ := alloc_ok (w' := w.copy r) hw
      (v := ⟨(w.view r).reg, [], []⟩) ⟨encCacheOk_nil _, decCacheOk_nil _⟩
      (by simp [World.copy, hc])
      (by simp [World.copy, hc, hn]; rfl)
      (by
        simp [World.view, World.copy, hc, setCell, hn, objAt]) ho
    refine ⟨h1, ?_, fun i hi _ => ho i hi, by simp [World.copy, hc]⟩
    rw [h2]
    simp [Plain.step, plain_get hr]
  · have hc : w.regs[r]? = none := List.getElem?_eq_none (by omega)
    have e : w.copy r = w := by simp [World.copy, hc]
    rw [e]
    refine ⟨hw, ?_, fun _ _ _ => rfl, Nat.le_refl _⟩
    have hp : w.plain[r]? = none := plain_none hr
    show w.plain = w.plain ++ w.plain[r]?.toList
    rw [hp]; simp

theorem stepOk_looked [Ext] {w w' : World} {r : Nat} {op : Op} (h : Looked w w' r)
    (ht : target op = some r) (hp : w.plain.step op = w.plain) : StepOk w w' op :=
  ⟨h.inv, h.plain.trans hp.symm, fun i _ hi => h.other i (fun e => hi (by rw [ht, e])),
    Nat.le_of_eq (by rw [h.regs])⟩

theorem stepOk_touch [Ext] {w w' : World} (hw : Inv w) {r : Nat} (hr : r < w.regs.length) {v : View}
    {op : Op} (h : Touch w w' r v) (hv : v.Good) (ht : target op = some r)
    {f : Registry → Registry} (hp : w.plain.step op = w.plain.on r f)
    (hf : f (w.view r).reg = v.reg) : StepOk w w' op :=
  ⟨h.inv hw hv, by rw [h.plain, hp, Plain.on, modify_some (plain_get hr) f, hf],
    fun i _ hi => h.other i (fun e => hi (by rw [ht, e])), Nat.le_of_eq (by rw [h.regs])⟩

theorem stepOk_out [Ext] {w w' : World} (hw : Inv w) {r : Nat} (hr : ¬ r < w.regs.length)
    {op : Op} (e : w' = w) {f : Registry → Registry} (hp : w.plain.step op = w.plain.on r f) :
    StepOk w w' op := by
  subst e
  exact ⟨hw, by rw [hp, Plain.on, modify_none (plain_none hr)], fun _ _ _ => rfl, Nat.le_refl _⟩

theorem step_ok [Ext] {w : World} (hw : Inv w) (fuel : Nat) (op : Op) :
    StepOk w (w.step fuel op) op := by
  cases op with
  | new => exact step_new hw
  | copy r => exact step_copy hw r
  | getEncoder r s => exact stepOk_looked (looked_getEncoder hw r fuel s) rfl rfl
  | getDecoder r s a => exact stepOk_looked (looked_getDecoder hw r fuel s a) rfl rfl
  | hasEncoder r s => exact stepOk_looked (looked_hasEncoder hw r fuel s) rfl rfl
  | encode r types args => exact stepOk_looked (looked_encode hw r fuel types args) rfl rfl
  | isEncodable r s v => exact stepOk_looked (looked_isEncodable hw r fuel s v) rfl rfl
  | decode r types data strict =>
    exact stepOk_looked (looked_decode hw r fuel types data strict) rfl rfl
  | registerEncoder r l e label =>
    by_cases hr : r < w.regs.length
    · obtain ⟨_, h⟩ := mutEnc hw.shape hr (fun m => m.register l e label)
        (x := w.registerEncoder r l e label) rfl
      exact stepOk_touch hw hr h ⟨encCacheOk_nil _, (hw.good r hr).dec⟩ rfl rfl rfl
    · exact stepOk_out hw hr (by simp [World.step, World.registerEncoder, onReg_out hr]) rfl
  | unregisterEncoder r l =>
    by_cases hr : r < w.regs.length
    · obtain ⟨_, h⟩ := mutEnc hw.shape hr (fun m => m.unregister l)
        (x := w.unregisterEncoder r l) rfl
      exact stepOk_touch hw hr h ⟨encCacheOk_nil _, (hw.good r hr).dec⟩ rfl rfl rfl
    · exact stepOk_out hw hr (by simp [World.step, World.unregisterEncoder, onReg_out hr]) rfl
  | registerDecoder r l d label =>
    by_cases hr : r < w.regs.length
    · obtain ⟨_, h⟩ := mutDec hw.shape hr (fun m => m.register l d label)
        (x := w.registerDecoder r l d label) rfl
      exact stepOk_touch hw hr h ⟨(hw.good r hr).enc, decCacheOk_nil _⟩ rfl rfl rfl
    · exact stepOk_out hw hr (by simp [World.step, World.registerDecoder, onReg_out hr]) rfl
  | unregisterDecoder r l =>
    by_cases hr : r < w.regs.length
    · obtain ⟨_, h⟩ := mutDec hw.shape hr (fun m => m.unregister l)
        (x := w.unregisterDecoder r l) rfl
      exact stepOk_touch hw hr h ⟨(hw.good r hr).enc, decCacheOk_nil _⟩ rfl rfl rfl
    · exact stepOk_out hw hr (by simp [World.step, World.unregisterDecoder, onReg_out hr]) rfl
  | register r l e d label =>
    by_cases hr : r < w.regs.length
    · obtain ⟨h0, h⟩ := mutEnc hw.shape hr (fun m => m.register l e label)
        (x := w.registerEncoder r l e label) rfl
      simp only [World.step, World.register]
      rcases hx : w.registerEncoder r l e label with ⟨res, w1⟩
      rw [hx] at h0 h
      simp only at h0 h
      have hv1 : View.Good ⟨{ (w.view r).reg with
          encoders := ((w.view r).reg.encoders.register l e label).2 }, [], (w.view r).dc⟩ :=
        ⟨encCacheOk_nil _, (hw.good r hr).dec⟩
      cases res with
      | error x =>
        exact stepOk_touch hw hr h hv1 rfl rfl (by rw [← h0]; rfl)
      | ok u =>
        have hr1 : r < w1.regs.length := by rw [h.regs]; exact hr
        obtain ⟨_, h'⟩ := mutDec (h.shape hw.shape) hr1 (fun m => m.register l d label)
          (x := w1.registerDecoder r l d label) rfl
        rw [h.here] at h'
        exact stepOk_touch hw hr (h.trans h') ⟨encCacheOk_nil _, decCacheOk_nil _⟩ rfl rfl
          (by rw [← h0]; rfl)
    · exact stepOk_out hw hr
        (by simp [World.step, World.register, World.registerEncoder, onReg_out hr]) rfl
  | unregister r l =>
    by_cases hr : r < w.regs.length
    · obtain ⟨h0, h⟩ := mutEnc hw.shape hr (fun m => m.unregister l)
        (x := w.unregisterEncoder r l) rfl
      simp only [World.step, World.unregister]
      rcases hx : w.unregisterEncoder r l with ⟨res, w1⟩
      rw [hx] at h0 h
      simp only at h0 h
      have hv1 : View.Good ⟨{ (w.view r).reg with
          encoders := ((w.view r).reg.encoders.unregister l).2 }, [], (w.view r).dc⟩ :=
        ⟨encCacheOk_nil _, (hw.good r hr).dec⟩
      cases res with
      | error x =>
        exact stepOk_touch hw hr h hv1 rfl rfl (by rw [← h0]; rfl)
      | ok u =>
        have hr1 : r < w1.regs.length := by rw [h.regs]; exact hr
        obtain ⟨_, h'⟩ := mutDec (h.shape hw.shape) hr1 (fun m => m.unregister l)
          (x := w1.unregisterDecoder r l) rfl
        rw [h.here] at h'
        exact stepOk_touch hw hr (h.trans h') ⟨encCacheOk_nil _, decCacheOk_nil _⟩ rfl rfl
          (by rw [← h0]; rfl)
    · exact stepOk_out hw hr
        (by simp [World.step, World.unregister, World.unregisterEncoder, onReg_out hr]) rfl

theorem run_ok [Ext] (h : History) : ∀ {w : World}, Inv w →
    Inv (w.run h) ∧ (w.run h).plain = w.plain.run h ∧ w.regs.length ≤ (w.run h).regs.length := by
  induction h with
  | nil => intro w hw; exact ⟨hw, rfl, Nat.le_refl _⟩
  | cons c h ih =>
    intro w hw
    have s := step_ok hw c.1 c.2
    obtain ⟨h1, h2, h3⟩ := ih s.inv
    exact ⟨h1, by rw [World.run, h2, s.plain]; rfl, Nat.le_trans s.grow h3⟩

theorem run_avoids [Ext] {r : Nat} (h : History) : ∀ {w : World}, Inv w → r < w.regs.length →
    Avoids r h → (w.run h).view r = w.view r := by
  induction h with
  | nil => intro w _ _ _; rfl
  | cons c h ih =>
    intro w hw hr ha
    have s := step_ok hw c.1 c.2
    rw [World.run, ih s.inv (Nat.lt_of_lt_of_le hr s.grow) fun x hx => ha x (List.mem_cons_of_mem _ hx),
      s.other r hr (ha c List.mem_cons_self)]

theorem inv_empty [Ext] : Inv World.empty :=
  ⟨⟨rfl, fun _ hi => absurd hi (Nat.not_lt_zero _)⟩, fun _ hi => absurd hi (Nat.not_lt_zero _)⟩

end EthAbi
