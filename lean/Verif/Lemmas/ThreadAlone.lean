import Verif.Lemmas.ThreadLookups

/-! # Threads: a call with no other thread in between does what `Model/World.lean` says -/
namespace EthAbi.Thr
open Spec

/-- Alone, the program does what `g` does. -/
def Sim {R : Type} (p : Prog R) (g : World → R × World) : Prop :=
  ∀ h, (p.exec h).1 = (g h.world).1 ∧ (p.exec h).2.world = (g h.world).2

theorem sim_ret {R : Type} (r : R) : Sim (.ret r) (fun w => (r, w)) := fun _ => ⟨rfl, rfl⟩

theorem sim_bind {R S : Type} {p : Prog R} {k : R → Prog S} {g : World → R × World}
    {G : R → World → S × World} (hp : Sim p g) (hk : ∀ r, Sim (k r) (G r)) :
    Sim (p.bind k) (fun w => G (g w).1 (g w).2) := by
  intro h
  rw [exec_bind]
  obtain ⟨h1, h2⟩ := hp h
  obtain ⟨h3, h4⟩ := hk (p.exec h).1 (p.exec h).2
  rw [h3, h4, h1, h2]
  exact ⟨rfl, rfl⟩

theorem sim_congr {R : Type} {p : Prog R} {g g' : World → R × World} (h : Sim p g)
    (e : ∀ w, g w = g' w) : Sim p g' := by
  intro x; rw [← e]; exact h x

theorem sim_read {R : Type} {next : Heap → Prog R} {g : World → R × World}
    (hn : ∀ h, ((next h).exec h).1 = (g h.world).1 ∧ ((next h).exec h).2.world = (g h.world).2) :
    Sim (.read next) g := hn

theorem sim_andThen {α β : Type} {p : Prog (PyM α)} {k : α → Prog (PyM β)}
    {g : World → PyM α × World} {G : α → World → PyM β × World} (hp : Sim p g)
    (hk : ∀ a, Sim (k a) (G a)) :
    Sim (p.andThen k) (fun w => match g w with
      | (.ok a, w) => G a w
      | (.error e, w) => (.error e, w)) := by
  refine sim_congr (sim_bind (G := fun x w => match x with
    | .ok a => G a w
    | .error e => (.error e, w)) hp fun x => ?_) fun w => ?_
  · cases x with
    | ok a => exact hk a
    | error e => exact sim_ret _
  · rcases g w with ⟨x, w'⟩
    cases x <;> rfl

/-! ## Changes -/

theorem setCell_self {α : Type} (f : Nat → α) (a : Nat) : setCell f a (f a) = f := by
  funext i; unfold setCell; split
  · subst_vars; rfl
  · rfl

theorem setCell_set {α : Type} (f : Nat → α) (a : Nat) (v v' : α) :
    setCell (setCell f a v) a v' = setCell f a v' := by
  funext i; unfold setCell; split <;> rfl

theorem setCell_get {α : Type} (f : Nat → α) (a : Nat) (v : α) : setCell f a v a = v := by
  simp [setCell]

/-- The dicts hold a mapping of the heap. -/
structure Lens {V : Type} (c : Cells V) (get : World → Mapping V) (set : World → Mapping V → World) :
    Prop where
  vals : ∀ h, c.vals h = (get h.world).values
  labels : ∀ h, c.labels h = (get h.world).labels
  setVals : ∀ vs h, (c.setVals vs h).world = set h.world ⟨vs, (get h.world).labels⟩
  setLabels : ∀ ls h, (c.setLabels ls h).world = set h.world ⟨(get h.world).values, ls⟩
  get_set : ∀ w m, get (set w m) = m
  set_set : ∀ w m m', set (set w m) m' = set w m'
  set_get : ∀ w, set w (get w) = w

theorem encLens (o : RegObj) :
    Lens (encCells o) (fun w => w.encMapping o) (fun w m => w.setEncMapping o m) where
  vals h := rfl
  labels h := rfl
  setVals vs h := by simp [encCells, World.setEncMapping, World.encMapping, setCell_self]
  setLabels ls h := by simp [encCells, World.setEncMapping, World.encMapping, setCell_self]
  get_set w m := by simp [World.setEncMapping, World.encMapping, setCell_get]
  set_set w m m' := by simp [World.setEncMapping, setCell_set]
  set_get w := by simp [World.setEncMapping, World.encMapping, setCell_self]

theorem decLens (o : RegObj) :
    Lens (decCells o) (fun w => w.decMapping o) (fun w m => w.setDecMapping o m) where
  vals h := rfl
  labels h := rfl
  setVals vs h := by simp [decCells, World.setDecMapping, World.decMapping, setCell_self]
  setLabels ls h := by simp [decCells, World.setDecMapping, World.decMapping, setCell_self]
  get_set w m := by simp [World.setDecMapping, World.decMapping, setCell_get]
  set_set w m m' := by simp [World.setDecMapping, setCell_set]
  set_get w := by simp [World.setDecMapping, World.decMapping, setCell_self]

theorem setVal_new {V : Type} {p : Pred} {v : V} {vs : List (Pred × V)}
    (h : ¬ (vs.any fun q => q.1.pyEq p) = true) : setVal p v vs = vs ++ [(p, v)] := by
  induction vs with
  | nil => rfl
  | cons q qs ih =>
    rw [List.any_cons, Bool.or_eq_true, not_or] at h
    rw [setVal, if_neg h.1, ih h.2]; rfl

theorem setLabel_new {l : List Char} {p : Pred} {ls : List (List Char × Pred)}
    (h : ¬ (ls.any fun q => q.1 == l) = true) : setLabel l p ls = ls ++ [(l, p)] := by
  induction ls with
  | nil => rfl
  | cons q qs ih =>
    rw [List.any_cons, Bool.or_eq_true, not_or] at h
    rw [setLabel, if_neg h.1, ih h.2]; rfl

theorem lookup_any {l : List Char} {p : Pred} {ls : List (List Char × Pred)}
    (h : ls.lookup l = some p) : (ls.any fun q => q.1 == l) = true := by
  induction ls with
  | nil => cases h
  | cons q qs ih =>
    rw [List.lookup_cons] at h
    rw [List.any_cons, Bool.or_eq_true]
    cases hs : l == q.1 with
    | true => left; rw [beq_iff_eq] at hs ⊢; exact hs.symm
    | false => rw [hs] at h; exact .inr (ih h)

section
variable {V : Type} {c : Cells V} {get : World → Mapping V} {set : World → Mapping V → World}

theorem sim_add (hc : Lens c get set) (p : Pred) (v : V) (label : Option (List Char)) :
    Sim (addProg c p v label) (fun w => (((get w).add p v label).1, set w ((get w).add p v label).2)) := by
  refine sim_read fun h => ?_
  rw [hc.vals]
  unfold Mapping.add Mapping.hasPred
  by_cases hp : ((get h.world).values.any fun q => q.1.pyEq p) = true
  · rw [if_pos hp, if_pos hp]; exact ⟨rfl, (hc.set_get _).symm⟩
  · rw [if_neg hp, if_neg hp]
    cases label with
    | none =>
      refine ⟨rfl, ?_⟩
      show (c.setVals (setVal p v (c.vals h)) h).world = _
      rw [hc.setVals, hc.vals, setVal_new hp]
    | some l =>
      show (Prog.exec (if (c.labels h).any (fun q => q.1 == l) = true then _ else _) h).1 = _ ∧
        (Prog.exec (if (c.labels h).any (fun q => q.1 == l) = true then _ else _) h).2.world = _
      rw [hc.labels]
      unfold Mapping.hasLabel
      by_cases hl : ((get h.world).labels.any fun q => q.1 == l) = true
      · simp only [hl, if_true]; exact ⟨rfl, (hc.set_get _).symm⟩
      · simp only [hl]
        refine ⟨rfl, ?_⟩
        show (c.setVals (setVal p v (c.vals (c.setLabels (setLabel l p (c.labels h)) h)))
          (c.setLabels (setLabel l p (c.labels h)) h)).world = _
        rw [hc.setVals, hc.vals, hc.setLabels, hc.get_set, hc.set_set, hc.labels, setVal_new hp,
          setLabel_new hl]
        rfl

theorem sim_register (hc : Lens c get set) (l : LookupArg) (v : V) (label : Option (List Char)) :
    Sim (registerProg c l v label)
      (fun w => (((get w).register l v label).1, set w ((get w).register l v label).2)) := by
  cases l with
  | pred p => exact sim_add hc p v label
  | str s i => exact sim_add hc ⟨i, .equals s⟩ v (some s)
  | other => exact fun h => ⟨rfl, (hc.set_get _).symm⟩

theorem sim_unregister (hc : Lens c get set) (l : LookupArg) :
    Sim (unregisterProg c l)
      (fun w => (((get w).unregister l).1, set w ((get w).unregister l).2)) := by
  cases l with
  | other => exact fun h => ⟨rfl, (hc.set_get _).symm⟩
  | pred p =>
    intro h
    show (Prog.exec (match Mapping.delPred p (c.vals h) with | none => _ | some _ => _) (match Mapping.delPred p (c.vals h) with | none => _ | some _ => _)).1 = _ ∧ (Prog.exec (match Mapping.delPred p (c.vals h) with | none => _ | some _ => _) (match Mapping.delPred p (c.vals h) with | none => _ | some _ => _)).2.world = _
    unfold Mapping.unregister Mapping.removeByEquality
    rw [hc.vals]
    cases hd : Mapping.delPred p (get h.world).values with
    | none => exact ⟨by simp only [hd]; rfl, by simp only [hd]; exact (hc.set_get _).symm⟩
    | some vs =>
      refine ⟨by simp only [hd]; rfl, ?_⟩
      simp only [hd]
      show (c.setLabels (Mapping.delLabelOf p (c.labels (c.setVals vs h))) (c.setVals vs h)).world = _
      rw [hc.setLabels, hc.labels, hc.setVals, hc.get_set, hc.set_set]
  | str s i =>
    refine sim_read fun h => ?_
    have hu : (get h.world).unregister (.str s i) = (match (get h.world).labels.lookup s with
      | none => (.error .keyError, get h.world)
      | some p =>
        match Mapping.delPred p (get h.world).values with
        | none => (.error .keyError, ⟨(get h.world).values, (get h.world).labels.filter fun q => q.1 != s⟩)
        | some vs => (.ok (), ⟨vs, (get h.world).labels.filter fun q => q.1 != s⟩)) := rfl
    rw [hu, hc.labels]
    cases hl : (get h.world).labels.lookup s with
    | none => exact ⟨rfl, (hc.set_get _).symm⟩
    | some p =>
      simp only
      have key : ∀ h' : Heap, h' = c.setLabels ((c.labels h).filter fun q => q.1 != s) h →
        (Prog.exec (if (c.labels h).any (fun q => q.1 == s) = true then delVal c p (.ret (.ok ()))
            else .ret (.error .keyError)) h').1 =
          (match Mapping.delPred p (get h.world).values with
            | none => ((.error .keyError, ⟨(get h.world).values, (get h.world).labels.filter fun q => q.1 != s⟩) : PyM Unit × Mapping V)
            | some vs => (.ok (), ⟨vs, (get h.world).labels.filter fun q => q.1 != s⟩)).1 ∧
        (Prog.exec (if (c.labels h).any (fun q => q.1 == s) = true then delVal c p (.ret (.ok ()))
            else .ret (.error .keyError)) h').2.world = set h.world
          (match Mapping.delPred p (get h.world).values with
            | none => ((.error .keyError, ⟨(get h.world).values, (get h.world).labels.filter fun q => q.1 != s⟩) : PyM Unit × Mapping V)
            | some vs => (.ok (), ⟨vs, (get h.world).labels.filter fun q => q.1 != s⟩)).2 := by
        intro h' he
        rw [if_pos (by rw [hc.labels]; exact lookup_any hl)]
        have hw : h'.world = set h.world ⟨(get h.world).values,
            (get h.world).labels.filter fun q => q.1 != s⟩ := by
          rw [he, hc.setLabels, hc.labels]
        have hv : c.vals h' = (get h.world).values := by rw [hc.vals, hw, hc.get_set]
        show (Prog.exec (match Mapping.delPred p (c.vals h') with | none => _ | some _ => _)
            (match Mapping.delPred p (c.vals h') with | none => _ | some _ => _)).1 = _ ∧
          (Prog.exec (match Mapping.delPred p (c.vals h') with | none => _ | some _ => _)
            (match Mapping.delPred p (c.vals h') with | none => _ | some _ => _)).2.world = _
        rw [hv]
        cases hd : Mapping.delPred p (get h.world).values with
        | none => exact ⟨by simp only [hd]; rfl, by simp only [hd]; exact hw⟩
        | some vs =>
          refine ⟨by simp only [hd]; rfl, ?_⟩
          simp only [hd]
          show (c.setVals vs h').world = _
          rw [hc.setVals, hw, hc.get_set, hc.set_set]
      exact key _ rfl
end

theorem sim_onReg {α : Type} {r : Nat} {f : RegObj → Prog (PyM α)}
    {F : World → RegObj → PyM α × World} (hf : ∀ o, Sim (f o) (fun w => F w o)) :
    Sim (onReg r f) (fun w => w.onReg r (F w)) := by
  refine sim_read fun h => ?_
  unfold World.onReg
  cases h.world.regs[r]? with
  | none => exact ⟨rfl, rfl⟩
  | some o => exact hf o h

theorem sim_write {R : Type} {f : Heap → Heap} {F : World → World} {p : Prog R} {g : World → R × World}
    (hf : ∀ h, (f h).world = F h.world) (hp : Sim p g) : Sim (.write f p) (fun w => g (F w)) := by
  intro h
  show (p.exec (f h)).1 = _ ∧ (p.exec (f h)).2.world = _
  rw [(hp (f h)).1, (hp (f h)).2, hf]
  exact ⟨rfl, rfl⟩

theorem sim_registerEncoder (r : Nat) (l : LookupArg) (e : Reg Encoder) (label : Option (List Char)) :
    Sim (registerEncoder r l e label) (fun w => w.registerEncoder r l e label) :=
  sim_onReg fun o => sim_write (fun _ => rfl) (sim_register (encLens o) l e label)

theorem sim_unregisterEncoder (r : Nat) (l : LookupArg) :
    Sim (unregisterEncoder r l) (fun w => w.unregisterEncoder r l) :=
  sim_onReg fun o => sim_write (fun _ => rfl) (sim_unregister (encLens o) l)

theorem sim_registerDecoder (r : Nat) (l : LookupArg) (d : Reg Decoder) (label : Option (List Char)) :
    Sim (registerDecoder r l d label) (fun w => w.registerDecoder r l d label) :=
  sim_onReg fun o => sim_write (fun _ => rfl) (sim_register (decLens o) l d label)

theorem sim_unregisterDecoder (r : Nat) (l : LookupArg) :
    Sim (unregisterDecoder r l) (fun w => w.unregisterDecoder r l) :=
  sim_onReg fun o => sim_write (fun _ => rfl) (sim_unregister (decLens o) l)

theorem sim_registerBoth (r : Nat) (l : LookupArg) (e : Reg Encoder) (d : Reg Decoder)
    (label : Option (List Char)) : Sim (register r l e d label) (fun w => w.register r l e d label) :=
  sim_congr (sim_andThen (sim_registerEncoder r l e label) fun _ => sim_registerDecoder r l d label)
    fun w => by
      unfold World.register
      rcases w.registerEncoder r l e label with ⟨x, w'⟩
      cases x <;> rfl

theorem sim_unregisterBoth (r : Nat) (l : LookupArg) :
    Sim (unregister r l) (fun w => w.unregister r l) :=
  sim_congr (sim_andThen (sim_unregisterEncoder r l) fun _ => sim_unregisterDecoder r l) fun w => by
      unfold World.unregister
      rcases w.unregisterEncoder r l with ⟨x, w'⟩
      cases x <;> rfl

/-! ## Lookups -/

/-- Alone, a program that only reads leaves the heap as it is. -/
theorem exec_still {R : Type} {h : Heap} {Post : R → Prop} (p : Prog R) (hp : Good (· = h) Post p) :
    Post (p.exec h).1 ∧ (p.exec h).2 = h := by
  induction p with
  | ret r => exact ⟨hp, rfl⟩
  | act f next ih =>
    obtain ⟨h1, h2⟩ := hp h rfl
    have := ih h h2
    rw [show (Prog.act f next).exec h = (next h).exec (f h) from rfl]
    have e : f h = h := h1
    rw [e]
    exact this

theorem sim_find [Ext] {V : Type} {c : Cells V} {get : World → Mapping V}
    {set : World → Mapping V → World} (hc : Lens c get set) (s : TypeStr) :
    Sim (findProg c s) (fun w => ((get w).getRegistration s, w)) := by
  intro h
  obtain ⟨h1, h2⟩ := exec_still (h := h) _ (good_find (I := (· = h)) (c := c) (m := get h.world)
    (stamp := h.stamps c.addr) (fun h' e => by rw [e, hc.vals]) (fun h' e => by rw [e]) s)
  exact ⟨h1, by rw [h2]⟩

theorem exec_andThen {α β : Type} (p : Prog (PyM α)) (k : α → Prog (PyM β)) (h : Heap) :
    (p.andThen k).exec h = match p.exec h with
      | (.ok a, h) => (k a).exec h
      | (.error e, h) => (.error e, h) := by
  unfold Prog.andThen
  rw [exec_bind]
  rcases p.exec h with ⟨x, h'⟩
  cases x <;> rfl

theorem exec_find [Ext] {V : Type} {c : Cells V} {get : World → Mapping V}
    {set : World → Mapping V → World} (hc : Lens c get set) (s : TypeStr) (h : Heap) :
    (findProg c s).exec h = ((get h.world).getRegistration s, h) := by
  obtain ⟨h1, h2⟩ := exec_still (h := h) _ (good_find (I := (· = h)) (c := c) (m := get h.world)
    (stamp := h.stamps c.addr) (fun h' e => by rw [e, hc.vals]) (fun h' e => by rw [e]) s)
  rw [← h1]
  exact Prod.ext rfl h2

/-- The heap with another table of encoders. -/
def withEnc (o : RegObj) (h : Heap) (c : EncCache) : Heap :=
  { h with world := { h.world with encCaches := setCell h.world.encCaches o.encCache c } }

theorem withEnc_self (o : RegObj) (h : Heap) : withEnc o h (h.world.encCaches o.encCache) = h := by
  unfold withEnc; rw [setCell_self]

theorem withEnc_withEnc (o : RegObj) (h : Heap) (c c' : EncCache) :
    withEnc o (withEnc o h c) c' = withEnc o h c' := by
  unfold withEnc; simp only [setCell_set]

theorem withEnc_get (o : RegObj) (h : Heap) (c : EncCache) :
    (withEnc o h c).world.encCaches o.encCache = c := setCell_get _ _ _

theorem exec_encPlan [Ext] {o : RegObj} {fuel : Nat} {m : Mapping (Reg Encoder)}
    (ih : ∀ s h, h.world.encMapping o = m → (encoderProg o fuel s).exec h =
      ((cachedEncoder m fuel s (h.world.encCaches o.encCache)).1,
        withEnc o h (cachedEncoder m fuel s (h.world.encCaches o.encCache)).2)) (p : Plan Encoder) :
    ∀ h, h.world.encMapping o = m → (planProg (encoderProg o fuel) p).exec h =
      ((p.execS (cachedEncoder m fuel) (h.world.encCaches o.encCache)).1,
        withEnc o h (p.execS (cachedEncoder m fuel) (h.world.encCaches o.encCache)).2) := by
  induction p with
  | ret x => intro h _; exact Prod.ext rfl (withEnc_self o h).symm
  | ask s k ihk =>
    intro h hm
    rw [planProg, exec_andThen, ih s h hm, Plan.execS]
    rcases cachedEncoder m fuel s (h.world.encCaches o.encCache) with ⟨x, c⟩
    cases x with
    | error e => rfl
    | ok e =>
      simp only
      rw [ihk e (withEnc o h c) hm, withEnc_get, withEnc_withEnc]

theorem exec_encoder [Ext] (o : RegObj) (m : Mapping (Reg Encoder)) (fuel : Nat) : ∀ s h,
    h.world.encMapping o = m → (encoderProg o fuel s).exec h =
      ((cachedEncoder m fuel s (h.world.encCaches o.encCache)).1,
        withEnc o h (cachedEncoder m fuel s (h.world.encCaches o.encCache)).2) := by
  induction fuel with
  | zero => intro s h _; exact Prod.ext rfl (withEnc_self o h).symm
  | succ fuel ih =>
    intro s h hm
    show (Prog.exec (match (h.world.encCaches o.encCache).lookup s with | some e => _ | none => _) h) = _
    unfold cachedEncoder
    cases hc : (h.world.encCaches o.encCache).lookup s with
    | some e => exact Prod.ext rfl (withEnc_self o h).symm
    | none =>
      simp only
      rw [exec_andThen, exec_find (encLens o), hm]
      cases hg : m.getRegistration s with
      | error e => exact Prod.ext rfl (withEnc_self o h).symm
      | ok v =>
        cases v with
        | obj e => rfl
        | cls plan =>
          simp only
          rw [exec_andThen, exec_encPlan ih (plan s) h hm]
          rcases (plan s).execS (cachedEncoder m fuel) (h.world.encCaches o.encCache) with ⟨x, c⟩
          cases x with
          | error e => rfl
          | ok e =>
            simp only
            refine Prod.ext rfl ?_
            show withEnc o (withEnc o h c) ((s, e) :: (withEnc o h c).world.encCaches o.encCache) = _
            rw [withEnc_withEnc, withEnc_get]

/-- The heap with another table of decoders and other attributes `strict`. -/
def withDec (o : RegObj) (h : Heap) (c : DecCache × Flags) : Heap :=
  { h with world := { h.world with decCaches := setCell h.world.decCaches o.decCache c.1, flags := c.2 } }

theorem withDec_self (o : RegObj) (h : Heap) :
    withDec o h (h.world.decCaches o.decCache, h.world.flags) = h := by
  unfold withDec; rw [setCell_self]

theorem withDec_withDec (o : RegObj) (h : Heap) (c c' : DecCache × Flags) :
    withDec o (withDec o h c) c' = withDec o h c' := by
  unfold withDec; simp only [setCell_set]

theorem withDec_get (o : RegObj) (h : Heap) (c : DecCache × Flags) :
    ((withDec o h c).world.decCaches o.decCache, (withDec o h c).world.flags) = c :=
  Prod.ext (setCell_get _ _ _) rfl

theorem exec_decPlan [Ext] {o : RegObj} {fuel : Nat} {m : Mapping (Reg Decoder)}
    (ih : ∀ s a h, h.world.decMapping o = m → (decoderProg o fuel s a).exec h =
      ((cachedDecoder m fuel s a (h.world.decCaches o.decCache, h.world.flags)).1,
        withDec o h (cachedDecoder m fuel s a (h.world.decCaches o.decCache, h.world.flags)).2))
    (p : Plan Decoder) :
    ∀ h, h.world.decMapping o = m → (planProg (fun s' => decoderProg o fuel s' .absent) p).exec h =
      ((p.execS (fun s' => cachedDecoder m fuel s' .absent)
          (h.world.decCaches o.decCache, h.world.flags)).1,
        withDec o h (p.execS (fun s' => cachedDecoder m fuel s' .absent)
          (h.world.decCaches o.decCache, h.world.flags)).2) := by
  induction p with
  | ret x => intro h _; exact Prod.ext rfl (withDec_self o h).symm
  | ask s k ihk =>
    intro h hm
    rw [planProg, exec_andThen, ih s .absent h hm, Plan.execS]
    rcases cachedDecoder m fuel s .absent (h.world.decCaches o.decCache, h.world.flags) with ⟨x, c⟩
    cases x with
    | error e => rfl
    | ok d =>
      simp only
      rw [ihk d (withDec o h c) hm, withDec_get, withDec_withDec]

theorem exec_decoder [Ext] (o : RegObj) (m : Mapping (Reg Decoder)) (fuel : Nat) : ∀ s a h,
    h.world.decMapping o = m → (decoderProg o fuel s a).exec h =
      ((cachedDecoder m fuel s a (h.world.decCaches o.decCache, h.world.flags)).1,
        withDec o h (cachedDecoder m fuel s a (h.world.decCaches o.decCache, h.world.flags)).2) := by
  induction fuel with
  | zero => intro s a h _; exact Prod.ext rfl (withDec_self o h).symm
  | succ fuel ih =>
    intro s a h hm
    show (Prog.exec (match (h.world.decCaches o.decCache).lookup (s, a) with
      | some e => _ | none => _) h) = _
    unfold cachedDecoder
    cases hc : (h.world.decCaches o.decCache).lookup (s, a) with
    | some e => exact Prod.ext rfl (withDec_self o h).symm
    | none =>
      simp only
      rw [exec_andThen, exec_find (decLens o), hm]
      cases hg : m.getRegistration s with
      | error e => exact Prod.ext rfl (withDec_self o h).symm
      | ok v =>
        cases v with
        | obj d => rfl
        | cls plan =>
          simp only
          rw [exec_andThen, exec_decPlan ih (plan s) h hm]
          rcases (plan s).execS (fun s' => cachedDecoder m fuel s' .absent)
            (h.world.decCaches o.decCache, h.world.flags) with ⟨x, c⟩
          cases x with
          | error e => rfl
          | ok d =>
            simp only
            refine Prod.ext rfl ?_
            show withDec o (withDec o h c) (((s, a), d.setStrict a.value) ::
              (withDec o h c).world.decCaches o.decCache, writeStrict d a.value (withDec o h c).world.flags) = _
            have hg := withDec_get o h c
            rw [withDec_withDec, ← congrArg Prod.fst hg]
            rfl

theorem sim_getEncoder [Ext] (fuel r : Nat) (s : TypeStr) :
    Sim (getEncoder fuel r s) (fun w => w.getEncoder fuel r s) :=
  sim_onReg fun o h => by rw [exec_encoder o _ fuel s h rfl]; exact ⟨rfl, rfl⟩

theorem sim_getDecoder [Ext] (fuel r : Nat) (s : TypeStr) (a : StrictArg) :
    Sim (getDecoder fuel r s a) (fun w => w.getDecoder fuel r s a) :=
  sim_onReg fun o h => by rw [exec_decoder o _ fuel s a h rfl]; exact ⟨rfl, rfl⟩

theorem sim_map {α β : Type} {f : α → Prog (PyM β)} {F : α → World → PyM β × World}
    (hf : ∀ x, Sim (f x) (F x)) (xs : List α) : Sim (mapProg f xs) (fun w => mapS F xs w) := by
  induction xs with
  | nil => exact sim_ret _
  | cons x xs ih =>
    refine sim_congr (sim_andThen (hf x) fun y => sim_andThen ih fun ys => sim_ret _) fun w => ?_
    rw [mapS]
    rcases F x w with ⟨y, w'⟩
    cases y with
    | error e => rfl
    | ok y =>
      simp only
      rcases mapS F xs w' with ⟨ys, w''⟩
      cases ys <;> rfl

theorem sim_hasEncoder [Ext] (fuel r : Nat) (s : TypeStr) :
    Sim (hasEncoder fuel r s) (fun w => w.hasEncoder fuel r s) := by
  refine sim_congr (sim_bind (G := fun x w => match x with
    | .ok _ => (.ok true, w)
    | .error .multipleEntriesFound => (.error .multipleEntriesFound, w)
    | .error _ => (.ok false, w)) (sim_getEncoder fuel r s) fun x => ?_) fun w => ?_
  · cases x with
    | ok e => exact sim_ret _
    | error e => cases e <;> exact sim_ret _
  · unfold World.hasEncoder
    rcases w.getEncoder fuel r s with ⟨x, w'⟩
    cases x with
    | ok e => rfl
    | error e => cases e <;> rfl

theorem sim_encode [Ext] (fuel r : Nat) (types : List TypeStr) (args : PyVal) :
    Sim (encode fuel r types args) (fun w => w.encode fuel r types args) := by
  unfold encode World.encode
  cases validateListLikeParam args with
  | error e => exact sim_ret _
  | ok u =>
    refine sim_congr (sim_andThen (sim_map (fun s => sim_getEncoder fuel r s) types)
      fun es => sim_ret _) fun w => ?_
    simp only
    rcases mapS (fun s (w : World) => w.getEncoder fuel r s) types w with ⟨x, w'⟩
    cases x <;> rfl

theorem sim_isEncodable [Ext] (fuel r : Nat) (s : TypeStr) (v : PyVal) :
    Sim (isEncodable fuel r s v) (fun w => w.isEncodable fuel r s v) := by
  refine sim_congr (sim_andThen (G := fun b w => match b with
    | false => (.ok false, w)
    | true => match w.getEncoder fuel r s with
      | (.ok e, w) => (World.encodableWith e v, w)
      | (.error x, w) => (.error x, w)) (sim_hasEncoder fuel r s) fun b => ?_) fun w => ?_
  · cases b with
    | false => exact sim_ret _
    | true =>
      refine sim_congr (sim_andThen (sim_getEncoder fuel r s) fun e => sim_ret _) fun w => ?_
      simp only
      rcases w.getEncoder fuel r s with ⟨x, w'⟩
      cases x <;> rfl
  · unfold World.isEncodable
    rcases w.hasEncoder fuel r s with ⟨x, w'⟩
    cases x with
    | error e => rfl
    | ok b =>
      cases b with
      | false => rfl
      | true =>
        simp only
        rcases w'.getEncoder fuel r s with ⟨x, w''⟩
        cases x <;> rfl

theorem sim_decode [Ext] (fuel r : Nat) (types : List TypeStr) (data : PyVal) (strict : Bool) :
    Sim (decode fuel r types data strict) (fun w => w.decode fuel r types data strict) := by
  unfold decode World.decode
  cases validateBytesParam data with
  | error e => exact sim_ret _
  | ok b =>
    refine sim_congr (sim_andThen (sim_map (fun s => sim_getDecoder fuel r s (.kw strict)) types)
      (G := fun ds w => ((do
        let (v, _) ← (mkTupleD ds).call w.flags (Stream.init b)
        return v), w)) fun ds h => ⟨rfl, rfl⟩) fun w => ?_
    simp only
    rcases mapS (fun s (w : World) => w.getDecoder fuel r s (.kw strict)) types w with ⟨x, w'⟩
    cases x with
    | error e => rfl
    | ok ds =>
      simp only
      cases hd : (mkTupleD ds).call w'.flags (Stream.init b) with
      | error e => rfl
      | ok p => rfl

/-! ## New registries -/

theorem sim_new : Sim new (fun w => (.ok (), w.new)) := fun h => ⟨rfl, rfl⟩

theorem sim_copy {h : Heap} (hs : Shape h.world) (r : Nat) :
    ((copy r).exec h).1 = .ok () ∧ ((copy r).exec h).2.world = h.world.copy r := by
  show (Prog.exec (match h.world.regs[r]? with | none => _ | some o => _) h).1 = _ ∧
    (Prog.exec (match h.world.regs[r]? with | none => _ | some o => _) h).2.world = _
  unfold World.copy
  by_cases hr : r < h.world.regs.length
  · have hn := hs.next
    rw [hs.obj r hr]
    refine ⟨rfl, ?_⟩
    simp only [Prog.exec, Prog.write, World.new, hn, objAt]
    have e1 : ¬ 6 * r = 6 * h.world.regs.length := by omega
    have e2 : ¬ 6 * r = 6 * h.world.regs.length + 2 := by omega
    have e3 : ¬ 6 * r + 3 = 6 * h.world.regs.length + 1 := by omega
    simp [setCell, e1, e2, e3]
    refine ⟨setCell_set _ _ _ _, setCell_set _ _ _ _, ?_⟩
    funext i
    unfold setCell
    split
    · rfl
    · split
      · rfl
      · rfl
  · rw [List.getElem?_eq_none (by omega)]
    exact ⟨rfl, rfl⟩

/-- A call with no other thread in between has the outcome and the effect that `Model/World.lean`
gives. -/
theorem program_alone [Ext] (fuel : Nat) (op : Op) {h : Heap} (hs : Shape h.world) :
    ((program fuel op).exec h).1 = outcome h.world fuel op ∧
      ((program fuel op).exec h).2.world = h.world.step fuel op := by
  have as : ∀ {α : Type} {f : PyM α → Res} {p : Prog (PyM α)} {g : World → PyM α × World}, Sim p g →
      ((p.as f).exec h).1 = f (g h.world).1 ∧ ((p.as f).exec h).2.world = (g h.world).2 := by
    intro α f p g hp
    obtain ⟨h1, h2⟩ := hp h
    unfold Prog.as
    rw [exec_bind]
    exact ⟨by show f (p.exec h).1 = _; rw [h1], h2⟩
  cases op with
  | new => exact as sim_new
  | copy r =>
    obtain ⟨h1, h2⟩ := sim_copy hs r
    unfold program Prog.as
    rw [exec_bind]
    exact ⟨by show Res.unit _ = _; rw [h1]; rfl, h2⟩
  | registerEncoder r l e label => exact as (sim_registerEncoder r l e label)
  | unregisterEncoder r l => exact as (sim_unregisterEncoder r l)
  | registerDecoder r l d label => exact as (sim_registerDecoder r l d label)
  | unregisterDecoder r l => exact as (sim_unregisterDecoder r l)
  | register r l e d label => exact as (sim_registerBoth r l e d label)
  | unregister r l => exact as (sim_unregisterBoth r l)
  | getEncoder r s => exact as (sim_getEncoder fuel r s)
  | getDecoder r s a => exact as (sim_getDecoder fuel r s a)
  | hasEncoder r s => exact as (sim_hasEncoder fuel r s)
  | encode r types args => exact as (sim_encode fuel r types args)
  | isEncodable r s v => exact as (sim_isEncodable fuel r s v)
  | decode r types data strict => exact as (sim_decode fuel r types data strict)

end EthAbi.Thr
