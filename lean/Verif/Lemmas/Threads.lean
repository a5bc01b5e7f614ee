import Verif.Spec.Threads
import Verif.Lemmas.Outcome

/-! # Threads: what the steps of a call read and write -/
namespace EthAbi.Thr
open Spec

/-- The program runs with no other thread in between. -/
def Prog.exec {R : Type} : Prog R → Heap → R × Heap
  | .ret r, h => (r, h)
  | .act f next, h => (next h).exec (f h)

theorem exec_bind {R S : Type} (p : Prog R) (k : R → Prog S) : ∀ h,
    (p.bind k).exec h = (k (p.exec h).1).exec (p.exec h).2 := by
  induction p with
  | ret r => intro h; rfl
  | act f next ih => intro h; exact ih h (f h)

/-- Every step keeps the invariant, if other threads keep it too, and the outcome is as it should be. -/
def Good {R : Type} (I : Heap → Prop) (Post : R → Prop) : Prog R → Prop
  | .ret r => Post r
  | .act f next => ∀ h, I h → I (f h) ∧ Good I Post (next h)

theorem good_bind {R S : Type} {I : Heap → Prop} {Post : R → Prop} {Post' : S → Prop} {k : R → Prog S}
    (p : Prog R) (hp : Good I Post p) (hk : ∀ r, Post r → Good I Post' (k r)) :
    Good I Post' (p.bind k) := by
  induction p with
  | ret r => exact hk r hp
  | act f next ih => intro h hi; exact ⟨(hp h hi).1, ih h (hp h hi).2⟩

theorem good_read {R : Type} {I : Heap → Prop} {Post : R → Prop} {next : Heap → Prog R}
    (hn : ∀ h, I h → Good I Post (next h)) : Good I Post (.read next) := fun h hi => ⟨hi, hn h hi⟩

theorem good_mono {R : Type} {I : Heap → Prop} {Post Post' : R → Prop} (hm : ∀ r, Post r → Post' r)
    (p : Prog R) (hp : Good I Post p) : Good I Post' p := by
  induction p with
  | ret r => exact hm r hp
  | act f next ih => intro h hi; exact ⟨(hp h hi).1, ih h (hp h hi).2⟩

/-- Object `r` exists, and objects are numbered as they were created. -/
structure Sh (r : Nat) (h : Heap) : Prop where
  shape : Shape h.world
  len : r < h.world.regs.length

/-- Object `r` is in `h'` as it is in `h`. -/
structure Same (r : Nat) (h h' : Heap) : Prop where
  sh : Sh r h'
  view : h'.world.view r = h.world.view r
  encs : h'.stamps (6 * r) = h.stamps (6 * r)
  decs : h'.stamps (6 * r + 2) = h.stamps (6 * r + 2)

theorem Same.refl {r : Nat} {h : Heap} (hs : Sh r h) : Same r h h := ⟨hs, rfl, rfl, rfl⟩

/-- No step changes object `r`. -/
def Away {R : Type} (r : Nat) : Prog R → Prop
  | .ret _ => True
  | .act f next => ∀ h, Sh r h → Same r h (f h) ∧ Away r (next h)

theorem away_bind {R S : Type} {r : Nat} {k : R → Prog S} (p : Prog R) (hp : Away r p)
    (hk : ∀ x, Away r (k x)) : Away r (p.bind k) := by
  induction p with
  | ret x => exact hk x
  | act f next ih => intro h hs; exact ⟨(hp h hs).1, ih h (hp h hs).2⟩

theorem away_read {R : Type} {r : Nat} {next : Heap → Prog R}
    (hn : ∀ h, Sh r h → Away r (next h)) : Away r (.read next) :=
  fun h hs => ⟨Same.refl hs, hn h hs⟩

theorem away_write {R : Type} {r : Nat} {f : Heap → Heap} {next : Prog R}
    (hf : ∀ h, Sh r h → Same r h (f h)) (hn : Away r next) : Away r (.write f next) :=
  fun h hs => ⟨hf h hs, hn⟩

theorem away_andThen {α β : Type} {r : Nat} {k : α → Prog (PyM β)} {p : Prog (PyM α)} (hp : Away r p)
    (hk : ∀ x, Away r (k x)) : Away r (p.andThen k) := by
  refine away_bind p hp fun x => ?_
  cases x with
  | ok a => exact hk a
  | error e => trivial

/-- The steps read and write nothing but object `r`. -/
def Local {R : Type} (r : Nat) : Prog R → Prop
  | .ret _ => True
  | .act f next => (∀ h, Sh r h → Sh r (f h)) ∧
      (∀ h h', Sh r h → Sh r h' → h.world.view r = h'.world.view r →
        (f h).world.view r = (f h').world.view r ∧ next h = next h') ∧
      ∀ h, Sh r h → Local r (next h)

theorem local_bind {R S : Type} {r : Nat} {k : R → Prog S} (p : Prog R) (hp : Local r p)
    (hk : ∀ x, Local r (k x)) : Local r (p.bind k) := by
  induction p with
  | ret x => exact hk x
  | act f next ih =>
    refine ⟨hp.1, fun h h' hs hs' hv => ⟨(hp.2.1 h h' hs hs' hv).1, ?_⟩,
      fun h hs => ih h (hp.2.2 h hs)⟩
    show (next h).bind k = (next h').bind k
    rw [(hp.2.1 h h' hs hs' hv).2]

theorem local_andThen {α β : Type} {r : Nat} {k : α → Prog (PyM β)} {p : Prog (PyM α)}
    (hp : Local r p) (hk : ∀ x, Local r (k x)) : Local r (p.andThen k) := by
  refine local_bind p hp fun x => ?_
  cases x with
  | ok a => exact hk a
  | error e => trivial

/-- A program that reads and writes only object `r` comes out the same wherever `r` is the same. -/
theorem local_exec {R : Type} {r : Nat} (p : Prog R) (hp : Local r p) : ∀ h h', Sh r h → Sh r h' →
    h.world.view r = h'.world.view r →
    (p.exec h).1 = (p.exec h').1 ∧ (p.exec h).2.world.view r = (p.exec h').2.world.view r := by
  induction p with
  | ret x => intro h h' _ _ hv; exact ⟨rfl, hv⟩
  | act f next ih =>
    intro h h' hs hs' hv
    obtain ⟨h1, h2⟩ := hp.2.1 h h' hs hs' hv
    have := ih h (hp.2.2 h hs) (f h) (f h') (hp.1 h hs) (hp.1 h' hs') h1
    rw [show (Prog.act f next).exec h = (next h).exec (f h) from rfl,
      show (Prog.act f next).exec h' = (next h').exec (f h') from rfl, ← h2]
    exact this

theorem local_sh {R : Type} {r : Nat} (p : Prog R) (hp : Local r p) : ∀ h, Sh r h →
    Sh r (p.exec h).2 := by
  induction p with
  | ret x => intro h hs; exact hs
  | act f next ih => intro h hs; exact ih h (hp.2.2 h hs) (f h) (hp.1 h hs)

/-! ## The primitive steps -/

theorem bump_other {h : Heap} {a b : Nat} (hab : b ≠ a) : bump h a b = h.stamps b := by
  simp [bump, setCell, hab]

theorem touch_encVals (w : World) (r : Nat) (vs : List (Pred × Reg Encoder)) :
    Touch w { w with encVals := setCell w.encVals (objAt r).encoders.values vs } r
      { w.view r with reg := { (w.view r).reg with encoders := ⟨vs, (w.view r).reg.encoders.labels⟩ } }
      where
  next := rfl
  regs := rfl
  here := by simp [World.view, objAt, setCell]
  other i hi := by
    have : ¬ 6 * i = 6 * r := by omega
    simp [World.view, objAt, setCell, this]

theorem touch_decVals (w : World) (r : Nat) (vs : List (Pred × Reg Decoder)) :
    Touch w { w with decVals := setCell w.decVals (objAt r).decoders.values vs } r
      { w.view r with reg := { (w.view r).reg with decoders := ⟨vs, (w.view r).reg.decoders.labels⟩ } }
      where
  next := rfl
  regs := rfl
  here := by simp [World.view, objAt, setCell]
  other i hi := by
    have : ¬ 6 * i = 6 * r := by omega
    simp [World.view, objAt, setCell, this]

theorem touch_encLabels (w : World) (r : Nat) (ls : List (List Char × Pred)) :
    Touch w { w with labels := setCell w.labels (objAt r).encoders.labels ls } r
      { w.view r with reg := { (w.view r).reg with encoders := ⟨(w.view r).reg.encoders.values, ls⟩ } }
      where
  next := rfl
  regs := rfl
  here := by simp [World.view, objAt, setCell]
  other i hi := by
    have h : ¬ 6 * i = 6 * r := by omega
    have h' : ¬ 6 * i + 3 = 6 * r + 1 := by omega
    simp [World.view, objAt, setCell, h, h']

theorem touch_decLabels (w : World) (r : Nat) (ls : List (List Char × Pred)) :
    Touch w { w with labels := setCell w.labels (objAt r).decoders.labels ls } r
      { w.view r with reg := { (w.view r).reg with decoders := ⟨(w.view r).reg.decoders.values, ls⟩ } }
      where
  next := rfl
  regs := rfl
  here := by simp [World.view, objAt, setCell]
  other i hi := by
    have h : ¬ 6 * i = 6 * r := by omega
    have h' : ¬ 6 * i = 6 * r + 2 := by omega
    simp [World.view, objAt, setCell, h, h']

/-- A step on object `r'` is a step that leaves `r` alone. -/
theorem same_touch {r r' : Nat} (hr : r' ≠ r) {h h' : Heap} {v : View} (hs : Sh r h)
    (ht : Touch h.world h'.world r' v)
    (hst : h'.stamps = h.stamps ∨ h'.stamps = bump h (6 * r') ∨ h'.stamps = bump h (6 * r' + 2)) :
    Same r h h' := by
  refine ⟨⟨ht.shape hs.shape, by rw [ht.regs]; exact hs.len⟩, ht.other r hr.symm, ?_, ?_⟩ <;>
    rcases hst with e | e | e <;> rw [e] <;> first | rfl | exact bump_other (by omega)

theorem same_putEncoder {r r' : Nat} (hr : r' ≠ r) (s : TypeStr) (e : Encoder) {h : Heap} (hs : Sh r h) :
    Same r h (putEncoder (objAt r') s e h) := same_touch hr hs (touch_encCache h.world r' _) (.inl rfl)

theorem same_putDecoder {r r' : Nat} (hr : r' ≠ r) (s : TypeStr) (a : StrictArg) (d : Decoder) {h : Heap}
    (hs : Sh r h) : Same r h (putDecoder (objAt r') s a d h) :=
  same_touch hr hs (touch_decCache h.world r' _ h.world.flags) (.inl rfl)

theorem same_assignStrict {r : Nat} (d : Decoder) (b : Bool) {h : Heap} (hs : Sh r h) :
    Same r h (assignStrict d b h) := ⟨⟨⟨hs.shape.next, hs.shape.obj⟩, hs.len⟩, rfl, rfl, rfl⟩

/-- The dicts of an object, and nothing else. -/
structure CellsAt {V : Type} (c : Cells V) (r : Nat) (get : View → Mapping V) : Prop where
  vals : ∀ h, c.vals h = (get (h.world.view r)).values
  labels : ∀ h, c.labels h = (get (h.world.view r)).labels
  addr : c.addr = 6 * r ∨ c.addr = 6 * r + 2
  setVals : ∀ vs h, ∃ v, Touch h.world (c.setVals vs h).world r v ∧
    ∀ h' : Heap, h'.world.view r = h.world.view r → (c.setVals vs h').world.view r = v
  setLabels : ∀ ls h, ∃ v, Touch h.world (c.setLabels ls h).world r v ∧
    ∀ h' : Heap, h'.world.view r = h.world.view r → (c.setLabels ls h').world.view r = v
  stampVals : ∀ vs h, (c.setVals vs h).stamps = bump h (6 * r) ∨
    (c.setVals vs h).stamps = bump h (6 * r + 2)
  stampLabels : ∀ ls h, (c.setLabels ls h).stamps = h.stamps

theorem encCellsAt (r : Nat) : CellsAt (encCells (objAt r)) r (fun v => v.reg.encoders) where
  vals h := rfl
  labels h := rfl
  addr := .inl rfl
  setVals vs h := ⟨_, touch_encVals h.world r vs, fun h' hv =>
    (touch_encVals h'.world r vs).here.trans (by rw [hv])⟩
  setLabels ls h := ⟨_, touch_encLabels h.world r ls, fun h' hv =>
    (touch_encLabels h'.world r ls).here.trans (by rw [hv])⟩
  stampVals _ _ := .inl rfl
  stampLabels _ _ := rfl

theorem decCellsAt (r : Nat) : CellsAt (decCells (objAt r)) r (fun v => v.reg.decoders) where
  vals h := rfl
  labels h := rfl
  addr := .inr rfl
  setVals vs h := ⟨_, touch_decVals h.world r vs, fun h' hv =>
    (touch_decVals h'.world r vs).here.trans (by rw [hv])⟩
  setLabels ls h := ⟨_, touch_decLabels h.world r ls, fun h' hv =>
    (touch_decLabels h'.world r ls).here.trans (by rw [hv])⟩
  stampVals _ _ := .inr rfl
  stampLabels _ _ := rfl

/-! ## Calls on other objects -/

theorem away_results [Ext] {V : Type} {r : Nat} (c : Cells V) (s : TypeStr) (stamp size : Nat) :
    ∀ left acc, Away r (resultsProg c s stamp size left acc) := by
  intro left
  induction left with
  | zero =>
    intro acc
    refine away_read fun h _ => ?_
    cases nextItem h c.addr (c.vals h) stamp size size with
    | error x => trivial
    | ok o => cases o <;> trivial
  | succ left ih =>
    intro acc
    refine away_read fun h _ => ?_
    cases nextItem h c.addr (c.vals h) stamp size (size - (left + 1)) with
    | error x => trivial
    | ok o =>
      cases o with
      | none => trivial
      | some q =>
        simp only
        cases q.1.matches s with
        | error x => trivial
        | ok b => cases b <;> exact ih _

theorem away_find [Ext] {V : Type} {r : Nat} (c : Cells V) (s : TypeStr) : Away r (findProg c s) :=
  away_read fun _ _ => away_bind _ (away_results c s _ _ _ _) fun _ => trivial

theorem away_plan {C : Type} {r : Nat} {look : TypeStr → Prog (PyM C)} (hl : ∀ s, Away r (look s))
    (p : Plan C) : Away r (planProg look p) := by
  induction p with
  | ret x => trivial
  | ask s k ih => exact away_andThen (hl s) ih

theorem away_encoder [Ext] {r r' : Nat} (hr : r' ≠ r) (fuel : Nat) : ∀ s,
    Away r (encoderProg (objAt r') fuel s) := by
  induction fuel with
  | zero => intro s; trivial
  | succ fuel ih =>
    intro s
    refine away_read fun h _ => ?_
    cases (h.world.encCaches (objAt r').encCache).lookup s with
    | some e => trivial
    | none =>
      refine away_andThen (away_find _ _) fun g => ?_
      cases g with
      | cls plan =>
        exact away_andThen (away_plan ih _) fun e =>
          away_write (fun h hs => same_putEncoder hr s e hs) trivial
      | obj e => exact away_write (fun h hs => same_putEncoder hr s e hs) trivial

theorem away_decoder [Ext] {r r' : Nat} (hr : r' ≠ r) (fuel : Nat) : ∀ s a,
    Away r (decoderProg (objAt r') fuel s a) := by
  induction fuel with
  | zero => intro s a; trivial
  | succ fuel ih =>
    intro s a
    refine away_read fun h _ => ?_
    cases (h.world.decCaches (objAt r').decCache).lookup (s, a) with
    | some e => trivial
    | none =>
      refine away_andThen (away_find _ _) fun g => ?_
      cases g with
      | cls plan =>
        exact away_andThen (away_plan (fun s' => ih s' _) _) fun d =>
          away_write (fun h hs => same_assignStrict d _ hs) <|
            away_write (fun h hs => same_putDecoder hr s a _ hs) trivial
      | obj d =>
        exact away_write (fun h hs => same_assignStrict d _ hs) <|
            away_write (fun h hs => same_putDecoder hr s a _ hs) trivial

theorem away_onReg {α : Type} {r r' : Nat} {f : RegObj → Prog (PyM α)} (hf : Away r (f (objAt r'))) :
    Away r (onReg r' f) := by
  refine away_read fun h hs => ?_
  by_cases hl : r' < h.world.regs.length
  · rw [hs.shape.obj r' hl]; exact hf
  · rw [List.getElem?_eq_none (by omega)]; trivial

theorem away_map {α β : Type} {r : Nat} {f : α → Prog (PyM β)} (hf : ∀ x, Away r (f x)) (xs : List α) :
    Away r (mapProg f xs) := by
  induction xs with
  | nil => trivial
  | cons x xs ih => exact away_andThen (hf x) fun y => away_andThen ih fun ys => trivial

theorem away_getEncoder [Ext] {r r' : Nat} (hr : r' ≠ r) (fuel : Nat) (s : TypeStr) :
    Away r (getEncoder fuel r' s) := away_onReg (away_encoder hr fuel s)

theorem away_getDecoder [Ext] {r r' : Nat} (hr : r' ≠ r) (fuel : Nat) (s : TypeStr) (a : StrictArg) :
    Away r (getDecoder fuel r' s a) := away_onReg (away_decoder hr fuel s a)

theorem away_hasEncoder [Ext] {r r' : Nat} (hr : r' ≠ r) (fuel : Nat) (s : TypeStr) :
    Away r (hasEncoder fuel r' s) := by
  refine away_bind _ (away_getEncoder hr fuel s) fun x => ?_
  cases x with
  | ok e => trivial
  | error e => cases e <;> trivial

theorem away_encode [Ext] {r r' : Nat} (hr : r' ≠ r) (fuel : Nat) (types : List TypeStr) (args : PyVal) :
    Away r (encode fuel r' types args) := by
  unfold encode
  cases validateListLikeParam args with
  | error e => trivial
  | ok u => exact away_andThen (away_map (away_getEncoder hr fuel) types) fun es => trivial

theorem away_isEncodable [Ext] {r r' : Nat} (hr : r' ≠ r) (fuel : Nat) (s : TypeStr) (v : PyVal) :
    Away r (isEncodable fuel r' s v) := by
  refine away_andThen (away_hasEncoder hr fuel s) fun b => ?_
  cases b with
  | false => trivial
  | true => exact away_andThen (away_getEncoder hr fuel s) fun e => trivial

theorem away_decode [Ext] {r r' : Nat} (hr : r' ≠ r) (fuel : Nat) (types : List TypeStr) (data : PyVal)
    (strict : Bool) : Away r (decode fuel r' types data strict) := by
  unfold decode
  cases validateBytesParam data with
  | error e => trivial
  | ok b =>
    exact away_andThen (away_map (fun s => away_getDecoder hr fuel s _) types) fun ds =>
      away_read fun h _ => trivial

section
variable {V : Type} {r r' : Nat} {c : Cells V} {get : View → Mapping V}

theorem same_setVals (hc : CellsAt c r' get) (hr : r' ≠ r) (vs : List (Pred × V)) {h : Heap}
    (hs : Sh r h) : Same r h (c.setVals vs h) := by
  obtain ⟨v, hv, _⟩ := hc.setVals vs h
  exact same_touch hr hs hv (.inr (hc.stampVals vs h))

theorem same_setLabels (hc : CellsAt c r' get) (hr : r' ≠ r) (ls : List (List Char × Pred)) {h : Heap}
    (hs : Sh r h) : Same r h (c.setLabels ls h) := by
  obtain ⟨v, hv, _⟩ := hc.setLabels ls h
  exact same_touch hr hs hv (.inl (hc.stampLabels ls h))

theorem away_add (hc : CellsAt c r' get) (hr : r' ≠ r) (p : Pred) (v : V) (label : Option (List Char)) :
    Away r (addProg c p v label) := by
  refine away_read fun h _ => ?_
  split
  · trivial
  · cases label with
    | none => exact away_write (fun h hs => same_setVals hc hr _ hs) trivial
    | some l =>
      refine away_read fun h _ => ?_
      split
      · trivial
      · exact away_write (fun h hs => same_setLabels hc hr _ hs) <|
          away_write (fun h hs => same_setVals hc hr _ hs) trivial

theorem away_delVal (hc : CellsAt c r' get) (hr : r' ≠ r) (p : Pred) {next : Prog (PyM Unit)}
    (hn : Away r next) : Away r (delVal c p next) := by
  intro h hs
  beta_reduce
  cases Mapping.delPred p (c.vals h) with
  | none => exact ⟨Same.refl hs, trivial⟩
  | some vs => exact ⟨same_setVals hc hr vs hs, hn⟩

theorem away_register (hc : CellsAt c r' get) (hr : r' ≠ r) (l : LookupArg) (v : V)
    (label : Option (List Char)) : Away r (registerProg c l v label) := by
  cases l with
  | pred p => exact away_add hc hr _ _ _
  | str s i => exact away_add hc hr ⟨i, .equals s⟩ v (some s)
  | other => trivial

theorem away_unregister (hc : CellsAt c r' get) (hr : r' ≠ r) (l : LookupArg) :
    Away r (unregisterProg c l) := by
  cases l with
  | pred p =>
    exact away_delVal hc hr p (away_write (fun h hs => same_setLabels hc hr _ hs) trivial)
  | str s i =>
    refine away_read fun h _ => ?_
    cases (c.labels h).lookup s with
    | none => trivial
    | some p =>
      intro h hs
      refine ⟨same_setLabels hc hr _ hs, ?_⟩
      beta_reduce
      split
      · exact away_delVal hc hr p trivial
      · trivial
  | other => trivial
end

theorem same_clearEnc {r r' : Nat} (hr : r' ≠ r) {h : Heap} (hs : Sh r h) :
    Same r h (clearEnc (objAt r') h) := same_touch hr hs (touch_clearEnc h.world r') (.inl rfl)

theorem same_clearDec {r r' : Nat} (hr : r' ≠ r) {h : Heap} (hs : Sh r h) :
    Same r h (clearDec (objAt r') h) := same_touch hr hs (touch_clearDec h.world r') (.inl rfl)

theorem away_registerEncoder {r r' : Nat} (hr : r' ≠ r) (l : LookupArg) (e : Reg Encoder)
    (label : Option (List Char)) : Away r (registerEncoder r' l e label) :=
  away_onReg (away_write (fun _ hs => same_clearEnc hr hs) (away_register (encCellsAt r') hr l e label))

theorem away_unregisterEncoder {r r' : Nat} (hr : r' ≠ r) (l : LookupArg) :
    Away r (unregisterEncoder r' l) :=
  away_onReg (away_write (fun _ hs => same_clearEnc hr hs) (away_unregister (encCellsAt r') hr l))

theorem away_registerDecoder {r r' : Nat} (hr : r' ≠ r) (l : LookupArg) (d : Reg Decoder)
    (label : Option (List Char)) : Away r (registerDecoder r' l d label) :=
  away_onReg (away_write (fun _ hs => same_clearDec hr hs) (away_register (decCellsAt r') hr l d label))

theorem away_unregisterDecoder {r r' : Nat} (hr : r' ≠ r) (l : LookupArg) :
    Away r (unregisterDecoder r' l) :=
  away_onReg (away_write (fun _ hs => same_clearDec hr hs) (away_unregister (decCellsAt r') hr l))

/-! ### New objects -/

theorem shape_new {w : World} (hw : Shape w) : Shape w.new := by
  have hn := hw.next
  refine ⟨by simp [World.new, hn]; omega, fun i hi => ?_⟩
  have hr : w.new.regs = w.regs ++ [objAt w.regs.length] := by simp [World.new, objAt, hn]
  rw [hr] at hi ⊢
  rw [List.length_append, List.length_singleton] at hi
  by_cases h : i < w.regs.length
  · rw [List.getElem?_append_left h, hw.obj i h]
  · have : i = w.regs.length := by omega
    subst this
    simp

theorem view_new {w : World} (hw : Shape w) {i : Nat} (hi : i < w.regs.length) :
    w.new.view i = w.view i := by
  have hn := hw.next
  have h0 : ¬ 6 * i = 6 * w.regs.length := by omega
  have h1 : ¬ 6 * i = 6 * w.regs.length + 2 := by omega
  have h2 : ¬ 6 * i + 3 = 6 * w.regs.length + 1 := by omega
  simp [World.view, World.new, setCell, hn, h0, h1, h2]

theorem same_new {r : Nat} {h : Heap} (hs : Sh r h) : Same r h { h with world := h.world.new } :=
  ⟨⟨shape_new hs.shape, by
    show r < h.world.new.regs.length
    have := hs.len
    simp [World.new]; omega⟩, view_new hs.shape hs.len, rfl, rfl⟩

theorem away_new {r : Nat} : Away r new := away_write (fun h hs => same_new hs) trivial

theorem away_copy {r : Nat} (r' : Nat) : Away r (copy r') := by
  refine away_read fun h _ => ?_
  cases h.world.regs[r']? with
  | none => trivial
  | some o =>
    intro h hs
    refine ⟨same_new hs, ?_⟩
    have hn := hs.shape.next
    have hl : h.world.regs.length ≠ r := by have := hs.len; omega
    beta_reduce
    simp only [hn]
    exact away_write (fun h hs => same_touch hl hs (touch_encVals h.world _ _) (.inl rfl)) <|
      away_write (fun h hs => same_touch hl hs (touch_encLabels h.world _ _) (.inl rfl)) <|
      away_write (fun h hs => same_touch hl hs (touch_decVals h.world _ _) (.inl rfl)) <|
      away_write (fun h hs => same_touch hl hs (touch_decLabels h.world _ _) (.inl rfl)) trivial

/-- A call that is not on object `r` leaves it alone at every step. -/
theorem away_program [Ext] {r : Nat} (fuel : Nat) (op : Op) (ht : target op ≠ some r) :
    Away r (program fuel op) := by
  have as : ∀ {α : Type} {f : PyM α → Res} {p : Prog (PyM α)}, Away r p → Away r (p.as f) :=
    fun hp => away_bind _ hp fun _ => trivial
  have ne : ∀ {r' : Nat}, some r' ≠ some r → r' ≠ r := fun h e => h (by rw [e])
  cases op with
  | new => exact as away_new
  | copy r' => exact as (away_copy r')
  | registerEncoder r' l e label => exact as (away_registerEncoder (ne ht) l e label)
  | unregisterEncoder r' l => exact as (away_unregisterEncoder (ne ht) l)
  | registerDecoder r' l d label => exact as (away_registerDecoder (ne ht) l d label)
  | unregisterDecoder r' l => exact as (away_unregisterDecoder (ne ht) l)
  | register r' l e d label =>
    exact as (away_andThen (away_registerEncoder (ne ht) l e label) fun _ =>
      away_registerDecoder (ne ht) l d label)
  | unregister r' l =>
    exact as (away_andThen (away_unregisterEncoder (ne ht) l) fun _ =>
      away_unregisterDecoder (ne ht) l)
  | getEncoder r' s => exact as (away_getEncoder (ne ht) fuel s)
  | getDecoder r' s a => exact as (away_getDecoder (ne ht) fuel s a)
  | hasEncoder r' s => exact as (away_hasEncoder (ne ht) fuel s)
  | encode r' types args => exact as (away_encode (ne ht) fuel types args)
  | isEncodable r' s v => exact as (away_isEncodable (ne ht) fuel s v)
  | decode r' types data strict => exact as (away_decode (ne ht) fuel types data strict)

end EthAbi.Thr
