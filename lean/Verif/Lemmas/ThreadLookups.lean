import Verif.Lemmas.Threads

/-! # Threads: lookups on a registry that nobody changes -/
namespace EthAbi.Thr
open Spec

/-- Object `r` has the registrations `g`, good caches, and its dicts have the given stamps. -/
structure Holds [Ext] (r : Nat) (g : Registry) (se sd : Nat) (h : Heap) : Prop where
  sh : Sh r h
  reg : (h.world.view r).reg = g
  good : (h.world.view r).Good
  encs : h.stamps (6 * r) = se
  decs : h.stamps (6 * r + 2) = sd

theorem Holds.same [Ext] {r : Nat} {g : Registry} {se sd : Nat} {h h' : Heap} (hh : Holds r g se sd h)
    (hs : Same r h h') : Holds r g se sd h' :=
  ⟨hs.sh, by rw [hs.view]; exact hh.reg, by rw [hs.view]; exact hh.good, hs.encs.trans hh.encs,
    hs.decs.trans hh.decs⟩

/-- A lookup agrees with the uncached one. -/
structure Agr {C : Type} (pure : Nat → PyM C) (fuel : Nat) (x : PyM C) : Prop where
  sound : x ≠ RE → ∃ f, pure f = x
  complete : pure fuel ≠ RE → x = pure fuel

theorem good_results [Ext] {V : Type} {I : Heap → Prop} {c : Cells V} {vs : List (Pred × V)} {stamp : Nat}
    (hv : ∀ h, I h → c.vals h = vs) (ht : ∀ h, I h → h.stamps c.addr = stamp) (s : TypeStr) :
    ∀ left acc, left ≤ vs.length → Good I
      (fun x => x = (do let rs ← Mapping.results s (vs.drop (vs.length - left)); return acc ++ rs))
      (resultsProg c s stamp vs.length left acc) := by
  intro left
  induction left with
  | zero =>
    intro acc _
    refine good_read fun h hi => ?_
    rw [hv h hi, nextItem, if_pos (ht h hi), List.getElem?_eq_none (Nat.le_refl _)]
    show Except.ok acc = _
    rw [Nat.sub_zero, List.drop_length]
    show Except.ok acc = Except.ok (acc ++ [])
    rw [List.append_nil]
  | succ left ih =>
    intro acc hl
    refine good_read fun h hi => ?_
    have hlt : vs.length - (left + 1) < vs.length := by omega
    rw [hv h hi, nextItem, if_pos (ht h hi), List.getElem?_eq_getElem hlt]
    have hd : vs.drop (vs.length - (left + 1)) =
        vs[vs.length - (left + 1)] :: vs.drop (vs.length - left) := by
      rw [List.drop_eq_getElem_cons hlt]; congr 2; omega
    rw [hd]
    generalize vs[vs.length - (left + 1)] = q
    simp only [Mapping.results]
    cases q.1.matches s with
    | error x => exact rfl
    | ok b =>
      cases b with
      | true =>
        refine good_mono (fun x hx => ?_) _ (ih (acc ++ [q]) (by omega))
        rw [hx]
        cases Mapping.results s (vs.drop (vs.length - left)) with
        | error e => rfl
        | ok rs =>
          show Except.ok (acc ++ [q] ++ rs) = Except.ok (acc ++ q :: rs)
          rw [List.append_assoc]; rfl
      | false =>
        refine good_mono (fun x hx => ?_) _ (ih acc (by omega))
        rw [hx]
        cases Mapping.results s (vs.drop (vs.length - left)) with
        | error e => rfl
        | ok rs => rfl

theorem registrationOf_eq [Ext] {V : Type} (m : Mapping V) (s : TypeStr) :
    registrationOf s (Mapping.results s m.values) = m.getRegistration s := rfl

theorem good_find [Ext] {V : Type} {I : Heap → Prop} {c : Cells V} {m : Mapping V} {stamp : Nat}
    (hv : ∀ h, I h → c.vals h = m.values) (ht : ∀ h, I h → h.stamps c.addr = stamp) (s : TypeStr) :
    Good I (fun x => x = m.getRegistration s) (findProg c s) := by
  refine good_read fun h hi => ?_
  rw [hv h hi, ht h hi]
  refine good_bind _ (good_results hv ht s _ [] (Nat.le_refl _)) fun x hx => ?_
  show registrationOf s x = _
  rw [hx, Nat.sub_self, List.drop_zero, ← registrationOf_eq]
  congr 1
  cases Mapping.results s m.values <;> rfl

/-- Sequencing two lookups. -/
theorem agr_bind {α β : Type} {fuel : Nat} {pa : Nat → PyM α} {pb : α → Nat → PyM β}
    (mono : ∀ f f', f ≤ f' → pa f ≠ RE → pa f' = pa f)
    (mono' : ∀ a f f', f ≤ f' → pb a f ≠ RE → pb a f' = pb a f) {x : PyM α} {y : PyM β}
    (hx : Agr pa fuel x)
    (hy : ∀ a, x = .ok a → Agr (pb a) fuel y) (he : ∀ e, x = .error e → y = .error e) :
    Agr (fun f => do let a ← pa f; pb a f) fuel y := by
  cases x with
  | error e =>
    have := he e rfl
    subst this
    refine ⟨fun hne => ?_, fun hne => ?_⟩
    · obtain ⟨f, hf⟩ := hx.sound (by intro h0; injection h0 with h0; subst h0; exact hne rfl)
      exact ⟨f, by simp only [hf]; rfl⟩
    · simp only [← hx.complete (bind_ne hne)]; rfl
  | ok a =>
    have hy := hy a rfl
    obtain ⟨f, hf⟩ := hx.sound (by simp)
    refine ⟨fun hne => ?_, fun hne => ?_⟩
    · obtain ⟨f', hf'⟩ := hy.sound hne
      refine ⟨max f f', ?_⟩
      have e1 : pa (max f f') = .ok a := by
        rw [mono f _ (Nat.le_max_left _ _) (by rw [hf]; simp), hf]
      have e2 : pb a (max f f') = y := by
        rw [mono' a f' _ (Nat.le_max_right _ _) (by rw [hf']; exact hne), hf']
      simp only [e1]; exact e2
    · have e := (hx.complete (bind_ne hne)).symm
      simp only [e] at hne ⊢
      exact hy.complete hne

theorem good_andThen {α β : Type} {I : Heap → Prop} {fuel : Nat} {pa : Nat → PyM α}
    {pb : α → Nat → PyM β} (mono : ∀ f f', f ≤ f' → pa f ≠ RE → pa f' = pa f)
    (mono' : ∀ a f f', f ≤ f' → pb a f ≠ RE → pb a f' = pb a f)
    {p : Prog (PyM α)} {k : α → Prog (PyM β)} (hp : Good I (Agr pa fuel) p)
    (hk : ∀ a, (∃ f, pa f = .ok a) → Good I (Agr (pb a) fuel) (k a)) :
    Good I (Agr (fun f => do let a ← pa f; pb a f) fuel) (p.andThen k) := by
  refine good_bind p hp fun x hx => ?_
  cases x with
  | error e => exact agr_bind mono mono' hx (fun a ha => by cases ha) fun e' he => by injection he with he; rw [he]
  | ok a =>
    refine good_mono (fun y hy => agr_bind mono mono' hx (fun a' ha => ?_) fun e he => ?_) _
      (hk a (hx.sound (by simp)))
    · injection ha with ha; rw [← ha]; exact hy
    · cases he

theorem good_plan {C : Type} {I : Heap → Prop} {fuel : Nat} {pure : Nat → TypeStr → PyM C}
    (mono : ∀ s f f', f ≤ f' → pure f s ≠ RE → pure f' s = pure f s)
    {look : TypeStr → Prog (PyM C)} (hl : ∀ s, Good I (Agr (fun f => pure f s) fuel) (look s))
    (p : Plan C) : Good I (Agr (fun f => p.exec (pure f)) fuel) (planProg look p) := by
  induction p with
  | ret x => exact ⟨fun _ => ⟨0, rfl⟩, fun _ => rfl⟩
  | ask s k ih =>
    have e : (fun f => (Plan.ask s k).exec (pure f)) =
        (fun f => pure f s >>= fun a => (k a).exec (pure f)) := by
      funext f
      rw [Plan.exec]
      cases pure f s <;> rfl
    rw [e]
    exact good_andThen (mono s)
      (fun a f f' hf hne => exec_mono (fun s' hs' => mono s' f f' hf hs') (k a) hne) (hl s)
      fun a _ => ih a

/-! ## Encoders -/

theorem holds_putEncoder [Ext] {r : Nat} {g : Registry} {se sd : Nat} {h : Heap}
    (hh : Holds r g se sd h) {s : TypeStr} {e : Encoder} {f : Nat}
    (he : getEncoderFuel g.encoders f s = .ok e) : Holds r g se sd (putEncoder (objAt r) s e h) := by
  have t := touch_encCache h.world r ((s, e) :: h.world.encCaches (objAt r).encCache)
  refine ⟨⟨t.shape hh.sh.shape, hh.sh.len⟩, ?_, ?_, hh.encs, hh.decs⟩
  · rw [show (putEncoder (objAt r) s e h).world.view r = _ from t.here]; exact hh.reg
  · rw [show (putEncoder (objAt r) s e h).world.view r = _ from t.here]
    refine ⟨?_, hh.good.dec⟩
    have := hh.good.enc
    rw [← hh.reg] at he
    exact encCacheOk_cons this he

theorem holds_vals [Ext] {r : Nat} {g : Registry} {se sd : Nat} : ∀ h, Holds r g se sd h →
    (encCells (objAt r)).vals h = g.encoders.values := fun h hh => by rw [← hh.reg]; rfl

theorem holds_decVals [Ext] {r : Nat} {g : Registry} {se sd : Nat} : ∀ h, Holds r g se sd h →
    (decCells (objAt r)).vals h = g.decoders.values := fun h hh => by rw [← hh.reg]; rfl

theorem agr_hit {C : Type} {pure : Nat → PyM C} (mono : ∀ f f', f ≤ f' → pure f ≠ RE → pure f' = pure f)
    {f fuel : Nat} {x : C} (h : pure f = .ok x) : Agr pure fuel (.ok x) := by
  refine ⟨fun _ => ⟨f, h⟩, fun hne => ?_⟩
  rcases Nat.le_total f fuel with hle | hle
  · exact ((mono f fuel hle (by rw [h]; simp)).trans h).symm
  · have := mono fuel f hle hne
    rw [← this, h]

theorem good_encoder [Ext] {r : Nat} {g : Registry} {se sd : Nat} (fuel : Nat) : ∀ s,
    Good (Holds r g se sd) (Agr (fun f => getEncoderFuel g.encoders f s) fuel)
      (encoderProg (objAt r) fuel s) := by
  have mono : ∀ s f f', f ≤ f' → getEncoderFuel g.encoders f s ≠ RE →
      getEncoderFuel g.encoders f' s = getEncoderFuel g.encoders f s :=
    fun s f f' hf hne => encoderFuel_mono _ hf hne
  induction fuel with
  | zero => intro s; exact ⟨fun hne => absurd rfl hne, fun hne => absurd rfl hne⟩
  | succ fuel ih =>
    intro s
    refine good_read fun h hh => ?_
    cases hc : (h.world.encCaches (objAt r).encCache).lookup s with
    | some e =>
      obtain ⟨f, hf⟩ := hh.good.enc s e hc
      rw [hh.reg] at hf
      exact agr_hit (mono s) hf
    | none =>
      refine good_bind _ (good_find (m := g.encoders) holds_vals (fun h hh => hh.encs) s) fun x hx => ?_
      subst hx
      cases hm : g.encoders.getRegistration s with
      | error e =>
        have : ∀ f, getEncoderFuel g.encoders (f + 1) s = .error e := by
          intro f; unfold getEncoderFuel; rw [hm]
        exact ⟨fun _ => ⟨1, this 0⟩, fun _ => (this fuel).symm⟩
      | ok v =>
        cases v with
        | obj e =>
          have : ∀ f, getEncoderFuel g.encoders (f + 1) s = .ok e := by
            intro f; unfold getEncoderFuel; rw [hm]
          exact fun h hh => ⟨holds_putEncoder hh (this 0), fun _ => ⟨1, this 0⟩, fun _ => (this fuel).symm⟩
        | cls plan =>
          have hp : ∀ f, getEncoderFuel g.encoders (f + 1) s =
              (plan s).exec (getEncoderFuel g.encoders f) := by
            intro f
            rw [show getEncoderFuel g.encoders (f + 1) s = (match g.encoders.getRegistration s with
              | .ok (.cls plan) => (plan s).exec (getEncoderFuel g.encoders f)
              | .ok (.obj e) => .ok e
              | .error e => .error e) from rfl, hm]
          refine good_bind _ (good_plan (pure := getEncoderFuel g.encoders) mono ih (plan s))
            fun x hx => ?_
          have key : Agr (fun f => getEncoderFuel g.encoders f s) (fuel + 1) x := by
            refine ⟨fun hne => ?_, fun hne => ?_⟩
            · obtain ⟨f, hf⟩ := hx.sound hne
              exact ⟨f + 1, (hp f).trans hf⟩
            · beta_reduce at hne ⊢
              rw [hp] at hne ⊢
              exact hx.complete hne
          cases x with
          | error e => exact key
          | ok e =>
            intro h hh
            obtain ⟨f, hf⟩ := key.sound (by simp)
            exact ⟨holds_putEncoder hh hf, key⟩

/-! ## Decoders -/

theorem holds_putDecoder [Ext] {r : Nat} {g : Registry} {se sd : Nat} {h : Heap}
    (hh : Holds r g se sd h) {s : TypeStr} {a : StrictArg} {d : Decoder} {f : Nat}
    (hd : getDecoderFuel g.decoders f s a.value = .ok d) :
    Holds r g se sd (putDecoder (objAt r) s a d h) := by
  have t := touch_decCache h.world r (((s, a), d) :: h.world.decCaches (objAt r).decCache) h.world.flags
  refine ⟨⟨t.shape hh.sh.shape, hh.sh.len⟩, ?_, ?_, hh.encs, hh.decs⟩
  · rw [show (putDecoder (objAt r) s a d h).world.view r = _ from t.here]; exact hh.reg
  · rw [show (putDecoder (objAt r) s a d h).world.view r = _ from t.here]
    refine ⟨hh.good.enc, ?_⟩
    have := hh.good.dec
    rw [← hh.reg] at hd
    exact decCacheOk_cons this hd

theorem good_decoder [Ext] {r : Nat} {g : Registry} {se sd : Nat} (fuel : Nat) : ∀ s a,
    Good (Holds r g se sd) (Agr (fun f => getDecoderFuel g.decoders f s a.value) fuel)
      (decoderProg (objAt r) fuel s a) := by
  have mono : ∀ b s f f', f ≤ f' → getDecoderFuel g.decoders f s b ≠ RE →
      getDecoderFuel g.decoders f' s b = getDecoderFuel g.decoders f s b :=
    fun b s f f' hf hne => decoderFuel_mono _ hf hne
  induction fuel with
  | zero => intro s a; exact ⟨fun hne => absurd rfl hne, fun hne => absurd rfl hne⟩
  | succ fuel ih =>
    intro s a
    refine good_read fun h hh => ?_
    cases hc : (h.world.decCaches (objAt r).decCache).lookup (s, a) with
    | some d =>
      obtain ⟨f, hf⟩ := hh.good.dec s a d hc
      rw [hh.reg] at hf
      exact agr_hit (mono a.value s) hf
    | none =>
      refine good_bind _ (good_find (m := g.decoders) holds_decVals (fun h hh => hh.decs) s)
        fun x hx => ?_
      subst hx
      cases hm : g.decoders.getRegistration s with
      | error e =>
        have : ∀ f, getDecoderFuel g.decoders (f + 1) s a.value = .error e := by
          intro f; unfold getDecoderFuel; rw [hm]
        exact ⟨fun _ => ⟨1, this 0⟩, fun _ => (this fuel).symm⟩
      | ok v =>
        cases v with
        | obj d =>
          have : ∀ f, getDecoderFuel g.decoders (f + 1) s a.value = .ok (d.setStrict a.value) := by
            intro f; unfold getDecoderFuel; rw [hm]
          exact fun h hh => ⟨hh.same (same_assignStrict d _ hh.sh), fun h hh =>
            ⟨holds_putDecoder hh (this 0), fun _ => ⟨1, this 0⟩, fun _ => (this fuel).symm⟩⟩
        | cls plan =>
          have hp : ∀ f, getDecoderFuel g.decoders (f + 1) s a.value =
              (do let d ← (plan s).exec (fun s' => getDecoderFuel g.decoders f s' true)
                  return d.setStrict a.value) := by
            intro f
            rw [show getDecoderFuel g.decoders (f + 1) s a.value =
              (match g.decoders.getRegistration s with
              | .ok (.cls plan) => do
                let d ← (plan s).exec (fun s' => getDecoderFuel g.decoders f s' true)
                return d.setStrict a.value
              | .ok (.obj d) => .ok (d.setStrict a.value)
              | .error e => .error e) from rfl, hm]
          refine good_bind _ (good_plan (pure := fun f s' => getDecoderFuel g.decoders f s' true)
            (mono true) (fun s' => ih s' .absent) (plan s)) fun x hx => ?_
          have key : Agr (fun f => getDecoderFuel g.decoders f s a.value) (fuel + 1)
              (do let d ← x; return d.setStrict a.value) := by
            refine ⟨fun hne => ?_, fun hne => ?_⟩
            · obtain ⟨f, hf⟩ := hx.sound (setStrict_bind hne)
              exact ⟨f + 1, (hp f).trans (by rw [hf])⟩
            · beta_reduce at hne ⊢
              rw [hp] at hne ⊢
              rw [hx.complete (setStrict_bind hne)]
          cases x with
          | error e => exact key
          | ok d =>
            obtain ⟨f, hf⟩ := key.sound (by simp [bind, Except.bind, pure, Except.pure])
            exact fun h hh => ⟨hh.same (same_assignStrict d _ hh.sh), fun h hh =>
              ⟨holds_putDecoder hh hf, key⟩⟩

/-! ## The calls -/

section
variable [Ext] {r : Nat} {g : Registry} {se sd : Nat}

theorem good_onReg {α : Type} {f : RegObj → Prog (PyM α)} {Post : PyM α → Prop}
    (hf : Good (Holds r g se sd) Post (f (objAt r))) : Good (Holds r g se sd) Post (onReg r f) := by
  refine good_read fun h hh => ?_
  rw [hh.sh.shape.obj r hh.sh.len]; exact hf

theorem good_getEncoder (fuel : Nat) (s : TypeStr) : Good (Holds r g se sd)
    (Agr (fun f => getEncoderFuel g.encoders f s) fuel) (getEncoder fuel r s) :=
  good_onReg (good_encoder fuel s)

theorem good_getDecoder (fuel : Nat) (s : TypeStr) (a : StrictArg) : Good (Holds r g se sd)
    (Agr (fun f => getDecoderFuel g.decoders f s a.value) fuel) (getDecoder fuel r s a) :=
  good_onReg (good_decoder fuel s a)

theorem good_map {α β : Type} {I : Heap → Prop} {fuel : Nat} {pure : Nat → α → PyM β}
    (mono : ∀ x f f', f ≤ f' → pure f x ≠ RE → pure f' x = pure f x)
    {look : α → Prog (PyM β)} (hl : ∀ x, Good I (Agr (fun f => pure f x) fuel) (look x)) (xs : List α) :
    Good I (Agr (fun f => mapPyM (pure f) xs) fuel) (mapProg look xs) := by
  induction xs with
  | nil => exact ⟨fun _ => ⟨0, rfl⟩, fun _ => rfl⟩
  | cons x xs ih =>
    have e : (fun f => mapPyM (pure f) (x :: xs)) =
        (fun f => pure f x >>= fun y => mapPyM (pure f) xs >>= fun ys => .ok (y :: ys)) := by
      funext f; rw [mapPyM]; rfl
    rw [e]
    have mono2 : ∀ f f', f ≤ f' → mapPyM (pure f) xs ≠ RE → mapPyM (pure f') xs = mapPyM (pure f) xs :=
      fun f f' hf hne => mapPyM_mono (fun x' hx' => mono x' f f' hf hx') xs hne
    refine good_andThen (pb := fun y f => do let ys ← mapPyM (pure f) xs; .ok (y :: ys)) (mono x) ?_
      (hl x) fun y _ => ?_
    · intro y f f' hf hne
      beta_reduce at hne ⊢
      rw [mono2 f f' hf (bind_ne hne)]
    · exact good_andThen (pb := fun ys f => .ok (y :: ys)) mono2 (fun _ _ _ _ _ => rfl) ih
        fun ys _ => ⟨fun _ => ⟨0, rfl⟩, fun _ => rfl⟩

theorem good_encoders (fuel : Nat) (types : List TypeStr) : Good (Holds r g se sd)
    (Agr (fun f => mapPyM (getEncoderFuel g.encoders f) types) fuel)
    (mapProg (getEncoder fuel r) types) :=
  good_map (pure := getEncoderFuel g.encoders) (fun _ _ _ hf hne => encoderFuel_mono _ hf hne)
    (good_getEncoder fuel) types

theorem good_decoders (fuel : Nat) (types : List TypeStr) (strict : Bool) : Good (Holds r g se sd)
    (Agr (fun f => mapPyM (fun s => getDecoderFuel g.decoders f s strict) types) fuel)
    (mapProg (fun s => getDecoder fuel r s (.kw strict)) types) :=
  good_map (pure := fun f s => getDecoderFuel g.decoders f s strict)
    (fun _ _ _ hf hne => decoderFuel_mono _ hf hne) (fun s => good_getDecoder fuel s (.kw strict)) types

theorem good_encode (fuel : Nat) (types : List TypeStr) (args : PyVal) : Good (Holds r g se sd)
    (Agr (fun f => encodeAt g f types args) fuel) (encode fuel r types args) := by
  unfold encode encodeAt
  cases validateListLikeParam args with
  | error e => exact ⟨fun _ => ⟨0, rfl⟩, fun _ => rfl⟩
  | ok u =>
    simp only [ok_bind]
    exact good_andThen (pa := fun f => mapPyM (getEncoderFuel g.encoders f) types)
      (pb := fun es _ => (mkTuple es).call args) (k := fun es => .ret ((mkTuple es).call args))
      (fun f f' hf hne => mapPyM_mono (fun _ hx => encoderFuel_mono _ hf hx) types hne)
      (fun _ _ _ _ _ => rfl) (good_encoders fuel types) fun es _ => ⟨fun _ => ⟨0, rfl⟩, fun _ => rfl⟩

theorem good_hasEncoder (fuel : Nat) (s : TypeStr) : Good (Holds r g se sd)
    (fun x => getEncoderFuel g.encoders fuel s ≠ RE → x = hasEncoderAt g fuel s)
    (hasEncoder fuel r s) := by
  refine good_bind _ (good_getEncoder fuel s) fun x hx => ?_
  have hc := hx.complete
  clear hx
  beta_reduce at hc
  unfold hasEncoderAt
  generalize getEncoderFuel g.encoders fuel s = y at hc ⊢
  cases x with
  | ok e => intro hne; rw [← hc hne]
  | error e => cases e <;> exact fun hne => by rw [← hc hne]

theorem good_isEncodable (fuel : Nat) (s : TypeStr) (v : PyVal) : Good (Holds r g se sd)
    (fun x => getEncoderFuel g.encoders fuel s ≠ RE → x = isEncodableAt g fuel s v)
    (isEncodable fuel r s v) := by
  refine good_bind _ (good_hasEncoder fuel s) fun x hx => ?_
  have false_of : getEncoderFuel g.encoders fuel s ≠ RE → ∀ e, x = .ok false →
      getEncoderFuel g.encoders fuel s = .ok e → False := by
    intro hne e h1 h2
    have := hx hne
    rw [h1, hasEncoderAt, h2] at this
    injection this with this
    cases this
  cases x with
  | error e =>
    intro hne
    have := hx hne
    rw [hasEncoderAt] at this
    rw [isEncodableAt]
    cases hg : getEncoderFuel g.encoders fuel s with
    | ok y => rw [hg] at this; cases this
    | error e' => rw [hg] at this; cases e' <;> first | exact this | cases this
  | ok b =>
    cases b with
    | false =>
      intro hne
      have := hx hne
      rw [hasEncoderAt] at this
      rw [isEncodableAt]
      cases hg : getEncoderFuel g.encoders fuel s with
      | ok y => exact absurd (false_of hne y rfl hg) id
      | error e' => rw [hg] at this; cases e' <;> first | rfl | cases this
    | true =>
      refine good_bind _ (good_getEncoder fuel s) fun x' hx' => ?_
      cases x' with
      | ok e =>
        intro hne
        rw [isEncodableAt, ← hx'.complete hne]
      | error e =>
        intro hne
        have := hx hne
        rw [hasEncoderAt] at this
        have h2 := hx'.complete hne
        beta_reduce at h2
        rw [← h2] at this
        cases e <;> cases this

theorem good_decode (fuel : Nat) (types : List TypeStr) (data : PyVal) (strict : Bool) :
    Good (Holds r g se sd)
      (fun x => ∃ fl, Agr (fun f => decodeAt g fl f types data strict) fuel x)
      (decode fuel r types data strict) := by
  unfold decode decodeAt
  cases validateBytesParam data with
  | error e => exact ⟨fun _ => true, fun _ => ⟨0, rfl⟩, fun _ => rfl⟩
  | ok b =>
    simp only [ok_bind]
    refine good_bind _ (good_decoders fuel types strict) fun x hx => ?_
    have mono : ∀ f f', f ≤ f' → mapPyM (fun s => getDecoderFuel g.decoders f s strict) types ≠ RE →
        mapPyM (fun s => getDecoderFuel g.decoders f' s strict) types =
          mapPyM (fun s => getDecoderFuel g.decoders f s strict) types :=
      fun f f' hf hne => mapPyM_mono (f := fun s => getDecoderFuel g.decoders f s strict)
        (f' := fun s => getDecoderFuel g.decoders f' s strict)
        (fun _ hx => decoderFuel_mono _ hf hx) types hne
    cases x with
    | error e =>
      exact ⟨fun _ => true, agr_bind (pb := fun ds _ => do
        let (v, _) ← (mkTupleD ds).call (fun _ => true) (Stream.init b); return v) mono
        (fun _ _ _ _ _ => rfl) hx (fun a ha => by cases ha)
        fun e' he => by injection he with he; rw [he]⟩
    | ok ds =>
      refine good_read fun h hh => ⟨h.world.flags, agr_bind (pb := fun ds _ => do
        let (v, _) ← (mkTupleD ds).call h.world.flags (Stream.init b); return v) mono
        (fun _ _ _ _ _ => rfl) hx (fun a ha => ?_) fun e' he => by cases he⟩
      injection ha with ha
      rw [← ha]
      exact ⟨fun _ => ⟨0, rfl⟩, fun _ => rfl⟩
end

theorem agree_of {α : Type} {f : Nat → PyM α} (mono : ∀ n n', n ≤ n' → f n ≠ RE → f n' = f n)
    {fuel : Nat} {x : PyM α} (h : Agr f fuel x) : Agree f fuel x :=
  ⟨fun hne => by obtain ⟨n, hn⟩ := h.sound hne; exact comesTo_of mono hne hn, h.complete⟩

/-- Every lookup on `r` has the outcome that the registrations of `r` determine. -/
theorem good_program [Ext] {r : Nat} {g : Registry} {se sd : Nat} (fuel : Nat) (op : Op)
    (ht : target op = some r) (hc : changes op ≠ some r) :
    Good (Holds r g se sd) (Determined g fuel op) (program fuel op) := by
  have as : ∀ {α : Type} {f : PyM α → Res} {p : Prog (PyM α)} {Post : PyM α → Prop}
      {Post' : Res → Prop}, Good (Holds r g se sd) Post p → (∀ x, Post x → Post' (f x)) →
      Good (Holds r g se sd) Post' (p.as f) :=
    fun hp hm => good_bind _ hp hm
  cases op with
  | new => cases ht
  | copy r' => cases ht
  | registerEncoder r' l e label => exact absurd ht hc
  | unregisterEncoder r' l => exact absurd ht hc
  | registerDecoder r' l d label => exact absurd ht hc
  | unregisterDecoder r' l => exact absurd ht hc
  | register r' l e d label => exact absurd ht hc
  | unregister r' l => exact absurd ht hc
  | getEncoder r' s =>
    injection ht with ht; subst ht
    exact as (good_getEncoder fuel s) fun x hx => agree_of (fun _ _ hn hne => encoderFuel_mono _ hn hne) hx
  | getDecoder r' s a =>
    injection ht with ht; subst ht
    exact as (good_getDecoder fuel s a) fun x hx =>
      agree_of (fun _ _ hn hne => decoderFuel_mono _ hn hne) hx
  | hasEncoder r' s => injection ht with ht; subst ht; exact as (good_hasEncoder fuel s) fun x hx => hx
  | encode r' types args =>
    injection ht with ht; subst ht
    exact as (good_encode fuel types args) fun x hx => agree_of (encodeAt_mono g types args) hx
  | isEncodable r' s v =>
    injection ht with ht; subst ht; exact as (good_isEncodable fuel s v) fun x hx => hx
  | decode r' types data strict =>
    injection ht with ht; subst ht
    refine as (good_decode fuel types data strict) fun x hx => ?_
    obtain ⟨fl, hx⟩ := hx
    have hx := agree_of (decodeAt_mono g fl types data strict) hx
    refine ⟨⟨fl, hx⟩, fun hg fl' => ?_⟩
    have e : (fun n => decodeAt g fl n types data strict) = fun n => decodeAt g fl' n types data strict :=
      funext fun n => decodeAt_free hg fl fl' n types data strict
    rw [← e]; exact hx

end EthAbi.Thr
