import Verif.Lemmas.World

/-! # The heap: registries hold different addresses, and what a call changes -/
namespace EthAbi
open Spec

/-- Object number `i`. -/
def objAt (i : Nat) : RegObj := ⟨⟨6 * i, 6 * i + 1⟩, ⟨6 * i + 2, 6 * i + 3⟩, 6 * i + 4, 6 * i + 5⟩

/-- What object number `i` holds. -/
structure View where
  reg : Registry
  ec : EncCache
  dc : DecCache

/-- What object number `i` holds. -/
def World.view (w : World) (i : Nat) : View where
  reg := ⟨⟨w.encVals (6 * i), w.labels (6 * i + 1)⟩, ⟨w.decVals (6 * i + 2), w.labels (6 * i + 3)⟩⟩
  ec := w.encCaches (6 * i + 4)
  dc := w.decCaches (6 * i + 5)

/-- Objects are numbered as they were created. -/
structure Shape (w : World) : Prop where
  next : w.next = 6 * w.regs.length
  obj : ∀ i, i < w.regs.length → w.regs[i]? = some (objAt i)

/-- The caches of a registry hold only what its registrations determine. -/
structure View.Good [Ext] (v : View) : Prop where
  enc : EncCacheOk v.reg.encoders v.ec
  dec : DecCacheOk v.reg.decoders v.dc

/-- The invariant of every reachable heap. -/
structure Inv [Ext] (w : World) : Prop where
  shape : Shape w
  good : ∀ i, i < w.regs.length → (w.view i).Good

/-- The registrations in a heap. -/
def World.plain (w : World) : Plain := (List.range w.regs.length).map fun i => (w.view i).reg

/-- `w'` is `w` with object `r` holding `v`. -/
structure Touch (w w' : World) (r : Nat) (v : View) : Prop where
  next : w'.next = w.next
  regs : w'.regs = w.regs
  here : w'.view r = v
  other : ∀ i, i ≠ r → w'.view i = w.view i

theorem Touch.trans {w w' w'' : World} {r : Nat} {v v' : View} (h : Touch w w' r v)
    (h' : Touch w' w'' r v') : Touch w w'' r v' where
  next := h'.next.trans h.next
  regs := h'.regs.trans h.regs
  here := h'.here
  other i hi := (h'.other i hi).trans (h.other i hi)

theorem Touch.refl (w : World) (r : Nat) : Touch w w r (w.view r) := ⟨rfl, rfl, rfl, fun _ _ => rfl⟩

theorem Touch.shape {w w' : World} {r : Nat} {v : View} (h : Touch w w' r v) (hw : Shape w) :
    Shape w' where
  next := by rw [h.next, h.regs]; exact hw.next
  obj i hi := by rw [h.regs] at hi ⊢; exact hw.obj i hi

theorem Touch.inv [Ext] {w w' : World} {r : Nat} {v : View} (h : Touch w w' r v) (hw : Inv w)
    (hv : v.Good) : Inv w' where
  shape := h.shape hw.shape
  good i hi := by
    rw [h.regs] at hi
    by_cases hr : i = r
    · subst hr; rw [h.here]; exact hv
    · rw [h.other i hr]; exact hw.good i hi

theorem Touch.plain {w w' : World} {r : Nat} {v : View} (h : Touch w w' r v) :
    w'.plain = w.plain.modify r fun _ => v.reg := by
  apply List.ext_getElem?
  intro i
  rw [List.getElem?_modify]
  simp only [World.plain, List.getElem?_map, h.regs]
  by_cases hi : i < w.regs.length
  · rw [List.getElem?_range hi]
    by_cases hr : r = i
    · subst hr; simp [h.here]
    · simp [hr, h.other i (Ne.symm hr)]
  · rw [List.getElem?_eq_none (by simpa using hi)]
    simp

theorem plain_get {w : World} {r : Nat} (h : r < w.regs.length) : w.plain[r]? = some (w.view r).reg := by
  simp [World.plain, List.getElem?_range h]

theorem plain_none {w : World} {r : Nat} (h : ¬ r < w.regs.length) : w.plain[r]? = none := by
  simp [World.plain]; omega

theorem modify_none {p : Plain} {r : Nat} (h : p[r]? = none) (f : Registry → Registry) :
    p.modify r f = p := by
  apply List.ext_getElem?
  intro i
  rw [List.getElem?_modify]
  by_cases hr : r = i
  · subst hr; simp [h]
  · simp [hr]

theorem modify_some {p : Plain} {r : Nat} {g : Registry} (h : p[r]? = some g)
    (f : Registry → Registry) : p.modify r f = p.modify r fun _ => f g := by
  apply List.ext_getElem?
  intro i
  rw [List.getElem?_modify, List.getElem?_modify]
  by_cases hr : r = i
  · subst hr; simp [h]
  · simp [hr]

theorem plain_length (w : World) : w.plain.length = w.regs.length := by simp [World.plain]

/-! ## The primitive writes -/

theorem touch_clearEnc (w : World) (r : Nat) :
    Touch w (w.clearEnc (objAt r)) r { w.view r with ec := [] } where
  next := rfl
  regs := rfl
  here := by simp [World.view, World.clearEnc, objAt, setCell]
  other i hi := by
    have : ¬ 6 * i = 6 * r := by omega
    simp [World.view, World.clearEnc, objAt, setCell, this]

theorem touch_clearDec (w : World) (r : Nat) :
    Touch w (w.clearDec (objAt r)) r { w.view r with dc := [] } where
  next := rfl
  regs := rfl
  here := by simp [World.view, World.clearDec, objAt, setCell]
  other i hi := by
    have : ¬ 6 * i = 6 * r := by omega
    simp [World.view, World.clearDec, objAt, setCell, this]

theorem touch_setEnc (w : World) (r : Nat) (m : Mapping (Reg Encoder)) :
    Touch w (w.setEncMapping (objAt r) m) r
      { w.view r with reg := { (w.view r).reg with encoders := m } } where
  next := rfl
  regs := rfl
  here := by
    simp [World.view, World.setEncMapping, objAt, setCell]
  other i hi := by
    have h : ¬ 6 * i = 6 * r := by omega
    have h' : ¬ 6 * i + 3 = 6 * r + 1 := by omega
    simp [World.view, World.setEncMapping, objAt, setCell, h, h']

theorem touch_setDec (w : World) (r : Nat) (m : Mapping (Reg Decoder)) :
    Touch w (w.setDecMapping (objAt r) m) r
      { w.view r with reg := { (w.view r).reg with decoders := m } } where
  next := rfl
  regs := rfl
  here := by
    simp [World.view, World.setDecMapping, objAt, setCell]
  other i hi := by
    have h : ¬ 6 * i = 6 * r := by omega
    have h' : ¬ 6 * i = 6 * r + 2 := by omega
    simp [World.view, World.setDecMapping, objAt, setCell, h, h']

theorem touch_encCache (w : World) (r : Nat) (c : EncCache) :
    Touch w { w with encCaches := setCell w.encCaches (objAt r).encCache c } r
      { w.view r with ec := c } where
  next := rfl
  regs := rfl
  here := by simp [World.view, objAt, setCell]
  other i hi := by
    have : ¬ 6 * i = 6 * r := by omega
    simp [World.view, objAt, setCell, this]

theorem touch_decCache (w : World) (r : Nat) (c : DecCache) (fl : Flags) :
    Touch w { w with decCaches := setCell w.decCaches (objAt r).decCache c, flags := fl } r
      { w.view r with dc := c } where
  next := rfl
  regs := rfl
  here := by simp [World.view, objAt, setCell]
  other i hi := by
    have : ¬ 6 * i = 6 * r := by omega
    simp [World.view, objAt, setCell, this]

theorem encMapping_view (w : World) (r : Nat) : w.encMapping (objAt r) = (w.view r).reg.encoders := rfl
theorem decMapping_view (w : World) (r : Nat) : w.decMapping (objAt r) = (w.view r).reg.decoders := rfl

/-! ## The calls -/

theorem onReg_in {α : Type} {w : World} (hw : Shape w) {r : Nat} (hr : r < w.regs.length)
    (f : RegObj → PyM α × World) : w.onReg r f = f (objAt r) := by
  unfold World.onReg; rw [hw.obj r hr]

theorem onReg_out {α : Type} {w : World} {r : Nat} (hr : ¬ r < w.regs.length)
    (f : RegObj → PyM α × World) : w.onReg r f = (.error .attributeError, w) := by
  unfold World.onReg; rw [List.getElem?_eq_none (by omega)]

/-- A registering call on the encoders. -/
theorem mutEnc {w : World} (hw : Shape w) {r : Nat} (hr : r < w.regs.length)
    (f : Mapping (Reg Encoder) → PyM Unit × Mapping (Reg Encoder)) {x : PyM Unit × World}
    (hx : x = w.onReg r fun o =>
      let w := w.clearEnc o
      let (res, m) := f (w.encMapping o)
      (res, w.setEncMapping o m)) :
    x.1 = (f (w.view r).reg.encoders).1 ∧
      Touch w x.2 r ⟨{ (w.view r).reg with encoders := (f (w.view r).reg.encoders).2 }, [],
        (w.view r).dc⟩ := by
  rw [onReg_in hw hr] at hx
  subst hx
  have e : (w.clearEnc (objAt r)).encMapping (objAt r) = (w.view r).reg.encoders := rfl
  refine ⟨rfl, ?_⟩
  have t1 := touch_clearEnc w r
  have t2 := touch_setEnc (w.clearEnc (objAt r)) r (f (w.view r).reg.encoders).2
  rw [t1.here] at t2
  exact t1.trans t2

/-- A registering call on the decoders. -/
theorem mutDec {w : World} (hw : Shape w) {r : Nat} (hr : r < w.regs.length)
    (f : Mapping (Reg Decoder) → PyM Unit × Mapping (Reg Decoder)) {x : PyM Unit × World}
    (hx : x = w.onReg r fun o =>
      let w := w.clearDec o
      let (res, m) := f (w.decMapping o)
      (res, w.setDecMapping o m)) :
    x.1 = (f (w.view r).reg.decoders).1 ∧
      Touch w x.2 r ⟨{ (w.view r).reg with decoders := (f (w.view r).reg.decoders).2 },
        (w.view r).ec, []⟩ := by
  rw [onReg_in hw hr] at hx
  subst hx
  refine ⟨rfl, ?_⟩
  have t1 := touch_clearDec w r
  have t2 := touch_setDec (w.clearDec (objAt r)) r (f (w.view r).reg.decoders).2
  rw [t1.here] at t2
  exact t1.trans t2

theorem getEncoder_touch [Ext] {w : World} (hw : Shape w) {r : Nat} (hr : r < w.regs.length)
    (fuel : Nat) (s : TypeStr) :
    (w.getEncoder fuel r s).1 = (cachedEncoder (w.view r).reg.encoders fuel s (w.view r).ec).1 ∧
      Touch w (w.getEncoder fuel r s).2 r
        { w.view r with ec := (cachedEncoder (w.view r).reg.encoders fuel s (w.view r).ec).2 } ∧
      (w.getEncoder fuel r s).2.flags = w.flags := by
  unfold World.getEncoder
  rw [onReg_in hw hr]
  exact ⟨rfl, touch_encCache w r _, rfl⟩

theorem getDecoder_touch [Ext] {w : World} (hw : Shape w) {r : Nat} (hr : r < w.regs.length)
    (fuel : Nat) (s : TypeStr) (a : StrictArg) :
    (w.getDecoder fuel r s a).1 =
        (cachedDecoder (w.view r).reg.decoders fuel s a ((w.view r).dc, w.flags)).1 ∧
      Touch w (w.getDecoder fuel r s a).2 r { w.view r with dc :=
        (cachedDecoder (w.view r).reg.decoders fuel s a ((w.view r).dc, w.flags)).2.1 } ∧
      (w.getDecoder fuel r s a).2.flags =
        (cachedDecoder (w.view r).reg.decoders fuel s a ((w.view r).dc, w.flags)).2.2 := by
  unfold World.getDecoder
  rw [onReg_in hw hr]
  exact ⟨rfl, touch_decCache w r _ _, rfl⟩

/-! ## Calls that only look up -/

/-- `w'` comes from `w` by lookups on object `r`: registrations stay, caches stay good. -/
structure Looked [Ext] (w w' : World) (r : Nat) : Prop where
  inv : Inv w'
  next : w'.next = w.next
  regs : w'.regs = w.regs
  reg : (w'.view r).reg = (w.view r).reg
  other : ∀ i, i ≠ r → w'.view i = w.view i

theorem Looked.refl [Ext] {w : World} (hw : Inv w) (r : Nat) : Looked w w r :=
  ⟨hw, rfl, rfl, rfl, fun _ _ => rfl⟩

theorem Looked.trans [Ext] {w w' w'' : World} {r : Nat} (h : Looked w w' r) (h' : Looked w' w'' r) :
    Looked w w'' r :=
  ⟨h'.inv, h'.next.trans h.next, h'.regs.trans h.regs, h'.reg.trans h.reg,
    fun i hi => (h'.other i hi).trans (h.other i hi)⟩

theorem Looked.plain [Ext] {w w' : World} {r : Nat} (h : Looked w w' r) : w'.plain = w.plain := by
  unfold World.plain
  rw [h.regs]
  apply List.map_congr_left
  intro i _
  by_cases hr : i = r
  · subst hr; exact h.reg
  · rw [h.other i hr]

theorem looked_getEncoder [Ext] {w : World} (hw : Inv w) (r fuel : Nat) (s : TypeStr) :
    Looked w (w.getEncoder fuel r s).2 r := by
  by_cases hr : r < w.regs.length
  · obtain ⟨_, h2, _⟩ := getEncoder_touch hw.shape hr fuel s
    refine ⟨h2.inv hw ⟨?_, (hw.good r hr).dec⟩, h2.next, h2.regs, by rw [h2.here], h2.other⟩
    exact (cachedEncoder_agrees _ fuel s _ (hw.good r hr).enc).ok
  · unfold World.getEncoder; rw [onReg_out hr]; exact Looked.refl hw r

theorem looked_getDecoder [Ext] {w : World} (hw : Inv w) (r fuel : Nat) (s : TypeStr) (a : StrictArg) :
    Looked w (w.getDecoder fuel r s a).2 r := by
  by_cases hr : r < w.regs.length
  · obtain ⟨_, h2, _⟩ := getDecoder_touch hw.shape hr fuel s a
    refine ⟨h2.inv hw ⟨(hw.good r hr).enc, ?_⟩, h2.next, h2.regs, by rw [h2.here], h2.other⟩
    exact (cachedDecoder_agrees _ fuel s a _ _ (hw.good r hr).dec).ok
  · unfold World.getDecoder; rw [onReg_out hr]; exact Looked.refl hw r

theorem looked_mapS [Ext] {α β : Type} {r : Nat} {f : α → World → PyM β × World}
    (hf : ∀ x w, Inv w → Looked w (f x w).2 r) (xs : List α) : ∀ w, Inv w →
    Looked w (mapS f xs w).2 r := by
  induction xs with
  | nil => intro w hw; exact Looked.refl hw r
  | cons x xs ih =>
    intro w hw
    have h1 := hf x w hw
    rw [mapS]
    rcases hx : f x w with ⟨y, w1⟩
    rw [hx] at h1
    cases y with
    | error e => exact h1
    | ok y =>
      have h2 := ih w1 h1.inv
      simp only
      rcases hy : mapS f xs w1 with ⟨ys, w2⟩
      rw [hy] at h2
      cases ys <;> exact h1.trans h2

theorem looked_hasEncoder [Ext] {w : World} (hw : Inv w) (r fuel : Nat) (s : TypeStr) :
    Looked w (w.hasEncoder fuel r s).2 r := by
  have h1 := looked_getEncoder hw r fuel s
  unfold World.hasEncoder
  rcases hx : w.getEncoder fuel r s with ⟨y, w1⟩
  rw [hx] at h1
  split <;> rename_i heq <;> injection heq with _ heq <;> subst heq <;> exact h1

theorem looked_encode [Ext] {w : World} (hw : Inv w) (r fuel : Nat) (types : List TypeStr)
    (args : PyVal) : Looked w (w.encode fuel r types args).2 r := by
  unfold World.encode
  cases validateListLikeParam args with
  | error e => exact Looked.refl hw r
  | ok _ =>
    have h1 := looked_mapS (r := r) (f := fun s w => w.getEncoder fuel r s)
      (fun s w hw => looked_getEncoder hw r fuel s) types w hw
    simp only
    rcases hx : mapS (fun s (w : World) => w.getEncoder fuel r s) types w with ⟨ys, w1⟩
    rw [hx] at h1
    cases ys <;> exact h1

theorem looked_isEncodable [Ext] {w : World} (hw : Inv w) (r fuel : Nat) (s : TypeStr)
    (v : PyVal) : Looked w (w.isEncodable fuel r s v).2 r := by
  have h1 := looked_hasEncoder hw r fuel s
  unfold World.isEncodable
  rcases hx : w.hasEncoder fuel r s with ⟨y, w1⟩
  rw [hx] at h1
  cases y with
  | error e => exact h1
  | ok b =>
    cases b with
    | false => exact h1
    | true =>
      have h2 := looked_getEncoder h1.inv r fuel s
      simp only
      rcases hy : w1.getEncoder fuel r s with ⟨z, w2⟩
      rw [hy] at h2
      cases z <;> exact h1.trans h2

theorem looked_decode [Ext] {w : World} (hw : Inv w) (r fuel : Nat) (types : List TypeStr)
    (data : PyVal) (strict : Bool) : Looked w (w.decode fuel r types data strict).2 r := by
  unfold World.decode
  cases validateBytesParam data with
  | error e => exact Looked.refl hw r
  | ok b =>
    have h1 := looked_mapS (r := r) (f := fun s w => w.getDecoder fuel r s (.kw strict))
      (fun s w hw => looked_getDecoder hw r fuel s _) types w hw
    simp only
    rcases hx : mapS (fun s (w : World) => w.getDecoder fuel r s (.kw strict)) types w with ⟨ys, w1⟩
    rw [hx] at h1
    cases ys with
    | error e => exact h1
    | ok ds =>
      simp only
      split <;> exact h1

end EthAbi
