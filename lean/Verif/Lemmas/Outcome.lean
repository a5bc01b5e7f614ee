import Verif.Lemmas.Imported
import Verif.Lemmas.Lookup

/-! # Outcomes of calls: default registries, and dependence on one object only -/
namespace EthAbi
open Spec

/-! ## The decoders of /repo keep no `strict` in a registered object -/

theorem flagFree_fixed (run : Stream → PyM (PyVal × Stream)) : FlagFree (fixedDecoder run) :=
  ⟨⟨true, rfl⟩, fun _ _ _ _ => rfl⟩

theorem planFree_bind {α : Type} (x : PyM α) (k : α → Plan Decoder) (h : ∀ a, PlanFree (k a)) :
    PlanFree (.bindPyM x k) := by
  cases x with
  | ok a => exact h a
  | error e => intro d hd; cases hd

theorem planFree_basic [Ext] (base : List Char) (mk : Sub → PyM Decoder)
    (h : ∀ s d, mk s = .ok d → FlagFree d) (s : TypeStr) : PlanFree (basicPlan base mk s) := by
  intro d hd
  obtain ⟨t, _, h2⟩ := bind_eq_ok.1 hd
  exact h _ _ h2

theorem free_intPlan {mk : Nat → PyM Decoder} (h : ∀ n d, mk n = .ok d → FlagFree d) (s : Sub) (d : Decoder)
    (hd : intPlan mk s = .ok d) : FlagFree d := by
  cases s with
  | one n => exact h n d hd
  | none => cases hd
  | two m n => cases hd

theorem free_fixedPlan {mk : Nat → Nat → PyM Decoder} (h : ∀ m n d, mk m n = .ok d → FlagFree d)
    (s : Sub) (d : Decoder) (hd : fixedPlan mk s = .ok d) : FlagFree d := by
  cases s with
  | one n => cases hd
  | none => cases hd
  | two m n => exact h m n d hd

theorem free_check {x : PyM Unit} {run : Stream → PyM (PyVal × Stream)} {d : Decoder}
    (h : (x >>= fun _ => pure (fixedDecoder run)) = .ok d) : FlagFree d := by
  obtain ⟨_, _, h⟩ := bind_eq_ok.1 h
  injection h with h
  subst h
  exact flagFree_fixed _

theorem free_check2 {x y : PyM Unit} {run : Stream → PyM (PyVal × Stream)} {d : Decoder}
    (h : (x >>= fun _ => y >>= fun _ => pure (fixedDecoder run)) = .ok d) : FlagFree d := by
  obtain ⟨_, _, h⟩ := bind_eq_ok.1 h
  exact free_check h

theorem planFree_askAll (ss : List TypeStr) : ∀ k : List Decoder → Plan Decoder,
    (∀ cs, (∀ c ∈ cs, FlagFree c) → PlanFree (k cs)) → PlanFree (.askAll ss k) := by
  induction ss with
  | nil => intro k h; exact h [] fun _ hc => (by cases hc)
  | cons s ss ih =>
    intro k h c hc
    apply ih
    intro cs hcs
    apply h
    intro c' hc'
    rcases List.mem_cons.1 hc' with e | hc'
    · subst e; exact hc
    · exact hcs c' hc'

theorem planFree_array [Ext] (s : TypeStr) : PlanFree (arrayPlan mkArrayD s) := by
  apply planFree_bind
  intro t
  apply planFree_bind
  intro item c hc
  cases t.arrlist.getLast? with
  | none => intro d hd; cases hd
  | some dim => intro d hd; exact flagFree_array hc hd

theorem planFree_tuple [Ext] (s : TypeStr) : PlanFree (tuplePlan mkTupleD s) := by
  apply planFree_bind
  intro comps
  apply planFree_askAll
  intro cs hcs d hd
  injection hd with hd
  subst hd
  exact flagFree_tuple hcs

theorem defaultDecoders_free [Ext] : ∀ r ∈ defaultDecoders, RegFree r := by
  have hb : FlagFree (byteStringDecoder (.own true)) := ⟨⟨true, rfl⟩, fun _ _ _ _ => rfl⟩
  have hs : FlagFree (stringDecoder (.own true)) := ⟨⟨true, rfl⟩, fun _ _ _ _ => rfl⟩
  intro r hr
  simp only [defaultDecoders, List.mem_cons, List.not_mem_nil, or_false] at hr
  rcases hr with rfl | rfl | rfl | rfl | rfl | rfl | rfl | rfl | rfl | rfl | rfl | rfl
  · exact planFree_basic _ _ (free_intPlan fun n d hd => free_check hd)
  · exact planFree_basic _ _ (free_intPlan fun n d hd => free_check hd)
  · exact planFree_basic _ _ fun _ d hd => by injection hd with hd; subst hd; exact flagFree_fixed _
  · exact planFree_basic _ _ fun _ d hd => by injection hd with hd; subst hd; exact flagFree_fixed _
  · exact planFree_basic _ _ (free_fixedPlan fun m n d hd => free_check2 hd)
  · exact planFree_basic _ _ (free_fixedPlan fun m n d hd => free_check2 hd)
  · exact planFree_basic _ _ (free_intPlan fun n d hd => free_check hd)
  · exact planFree_basic _ _ fun _ d hd => by injection hd with hd; subst hd; exact hb
  · exact planFree_basic _ _ (free_intPlan fun n d hd => free_check hd)
  · exact planFree_basic _ _ fun _ d hd => by injection hd with hd; subst hd; exact hs
  · exact planFree_array
  · exact planFree_tuple

theorem mappingOf_values {V : Type} (ps : List (List Char × PredKind)) : ∀ (i : Nat) (vs : List V),
    ∀ q ∈ (mappingOf i ps vs).values, q.2 ∈ vs := by
  induction ps with
  | nil => intro i vs q hq; simp [mappingOf, Mapping.empty] at hq
  | cons p ps ih =>
    intro i vs q hq
    cases vs with
    | nil => simp [mappingOf, Mapping.empty] at hq
    | cons v vs =>
      rw [mappingOf] at hq
      rcases List.mem_cons.1 hq with hq | hq
      · subst hq; exact List.mem_cons_self
      · exact List.mem_cons_of_mem _ (ih (i + 1) vs q hq)

theorem noShared_default [Ext] : NoSharedDecoders defaultRegistry :=
  fun q hq => defaultDecoders_free _ (mappingOf_values _ _ _ q hq)

/-! ## Enough recursion for the default registries -/

theorem typeErr_ne {α : Type} {e : Exc} (h : TypeErr e) : (Except.error e : PyM α) ≠ RE := by
  intro h0
  injection h0 with h0
  subst h0
  rcases h with h | h | h | h | h <;> cases h

theorem encoderFuel_default [Ext] {fuel : Nat} {s : TypeStr} (h : s.length < fuel) :
    getEncoderFuel defaultRegistry.encoders fuel s ≠ RE ∧
    getEncoderFuel defaultRegistry.encoders fuel s = getEncoder defaultRegistry s := by
  have hne : getEncoder defaultRegistry s ≠ RE := by
    rcases getEncoder_default s with ⟨t, _, h⟩ | ⟨_, e, h, he⟩
    · rw [h]; simp
    · rw [h]; exact typeErr_ne he
  have := encoderFuel_mono defaultRegistry.encoders (f := s.length + 1) (f' := fuel) h hne
  exact ⟨by rw [this]; exact hne, this⟩

theorem encoderFuel_packed [Ext] {fuel : Nat} {s : TypeStr} (h : s.length < fuel) :
    getEncoderFuel packedRegistry.encoders fuel s ≠ RE ∧
    getEncoderFuel packedRegistry.encoders fuel s = getEncoder packedRegistry s := by
  have hne : getEncoder packedRegistry s ≠ RE := by
    rcases getEncoder_packed s with ⟨t, _, h⟩ | ⟨_, e, h, he⟩
    · rw [h]; simp
    · rw [h]; exact typeErr_ne he
  have := encoderFuel_mono packedRegistry.encoders (f := s.length + 1) (f' := fuel) h hne
  exact ⟨by rw [this]; exact hne, this⟩

theorem decoderFuel_default [Ext] {fuel : Nat} {s : TypeStr} (h : s.length < fuel) (strict : Bool) :
    getDecoderFuel defaultRegistry.decoders fuel s strict ≠ RE ∧
    getDecoderFuel defaultRegistry.decoders fuel s strict = getDecoder defaultRegistry s strict := by
  have hne : getDecoder defaultRegistry s strict ≠ RE := by
    rcases getDecoder_default s strict with ⟨t, _, h⟩ | ⟨_, e, h, he⟩
    · rw [h]; simp
    · rw [h]; exact typeErr_ne he
  have := decoderFuel_mono defaultRegistry.decoders (f := s.length + 1) (f' := fuel) h hne
  exact ⟨by rw [this]; exact hne, this⟩

theorem mapPyM_congr_mem {α β : Type} {f g : α → PyM β} (xs : List α) (h : ∀ x ∈ xs, f x = g x) :
    mapPyM f xs = mapPyM g xs := by
  induction xs with
  | nil => rfl
  | cons x xs ih =>
    rw [mapPyM, mapPyM, h x List.mem_cons_self, ih fun y hy => h y (List.mem_cons_of_mem _ hy)]

theorem mapPyM_ne {α β : Type} {f : α → PyM β} (xs : List α) (h : ∀ x ∈ xs, f x ≠ RE) :
    mapPyM f xs ≠ RE := by
  induction xs with
  | nil => simp [mapPyM]
  | cons x xs ih =>
    have hx := h x List.mem_cons_self
    have ih := ih fun y hy => h y (List.mem_cons_of_mem _ hy)
    rw [mapPyM]
    cases hfx : f x with
    | error e => rw [hfx] at hx; intro h0; injection h0 with h0; subst h0; exact hx rfl
    | ok y =>
      cases hxs : mapPyM f xs with
      | error e => rw [hxs] at ih; intro h0; injection h0 with h0; subst h0; exact ih rfl
      | ok ys => simp

/-! ## Outcomes when the lookups stay within the recursion limit -/

theorem encode_outcome [Ext] {r : Nat} {g : Registry} {fuel : Nat} {types : List TypeStr} {args : PyVal}
    {w : World} (h : Has r g w) (hne : ∀ s ∈ types, getEncoderFuel g.encoders fuel s ≠ RE) :
    (w.encode fuel r types args).1 = encodeAt g fuel types args := by
  have hl := (encoders_agree fuel types h).complete (mapPyM_ne _ hne)
  unfold World.encode encodeAt
  cases validateListLikeParam args with
  | error e => rfl
  | ok u =>
    simp only [ok_bind, ← hl]
    rcases mapS (fun s (w : World) => w.getEncoder fuel r s) types w with ⟨es, w'⟩
    cases es with
    | error e => rfl
    | ok es => rfl

theorem decode_outcome [Ext] {r : Nat} {g : Registry} {fuel : Nat} {types : List TypeStr} {data : PyVal}
    {strict : Bool} {w : World} (h : Has r g w)
    (hne : ∀ s ∈ types, getDecoderFuel g.decoders fuel s strict ≠ RE) :
    (w.decode fuel r types data strict).1 =
      decodeAt g (w.decode fuel r types data strict).2.flags fuel types data strict := by
  have hl := (decoders_agree fuel types strict h).complete (mapPyM_ne _ hne)
  unfold World.decode decodeAt
  cases validateBytesParam data with
  | error e => rfl
  | ok b =>
    simp only [ok_bind, ← hl]
    rcases mapS (fun s (w : World) => w.getDecoder fuel r s (.kw strict)) types w with ⟨ds, w'⟩
    cases ds with
    | error e => rfl
    | ok ds =>
      simp only [ok_bind]
      cases hd : (mkTupleD ds).call w'.flags (Stream.init b) with
      | error e => simp only [hd]; rfl
      | ok p => simp only [hd]; rfl

/-! ## A call reads only the object it is made on -/

/-- Two heaps in which object `r` holds the same. -/
structure SameAt [Ext] (r : Nat) (w w' : World) : Prop where
  inv : Inv w
  inv' : Inv w'
  len : r < w.regs.length
  len' : r < w'.regs.length
  view : w.view r = w'.view r

theorem same_getEncoder [Ext] {r : Nat} {w w' : World} (h : SameAt r w w') (fuel : Nat) (s : TypeStr) :
    (w.getEncoder fuel r s).1 = (w'.getEncoder fuel r s).1 ∧
      SameAt r (w.getEncoder fuel r s).2 (w'.getEncoder fuel r s).2 := by
  obtain ⟨h1, h2, _⟩ := getEncoder_touch h.inv.shape h.len fuel s
  obtain ⟨h1', h2', _⟩ := getEncoder_touch h.inv'.shape h.len' fuel s
  refine ⟨by rw [h1, h1', h.view], (looked_getEncoder h.inv r fuel s).inv,
    (looked_getEncoder h.inv' r fuel s).inv, by rw [h2.regs]; exact h.len, by rw [h2'.regs]; exact h.len', ?_⟩
  rw [h2.here, h2'.here, h.view]

theorem same_mapS {α β σ : Type} {R : σ → σ → Prop} {f f' : α → σ → PyM β × σ}
    (hf : ∀ x st st', R st st' → (f x st).1 = (f' x st').1 ∧ R (f x st).2 (f' x st').2) (xs : List α) :
    ∀ st st', R st st' → (mapS f xs st).1 = (mapS f' xs st').1 ∧ R (mapS f xs st).2 (mapS f' xs st').2 := by
  induction xs with
  | nil => intro st st' h; exact ⟨rfl, h⟩
  | cons x xs ih =>
    intro st st' h
    obtain ⟨h1, h2⟩ := hf x st st' h
    rw [mapS, mapS]
    rcases hx : f x st with ⟨y, s1⟩
    rcases hx' : f' x st' with ⟨y', s1'⟩
    rw [hx, hx'] at h1 h2
    simp only at h1 h2
    subst h1
    cases y with
    | error e => exact ⟨rfl, h2⟩
    | ok y =>
      obtain ⟨h3, h4⟩ := ih s1 s1' h2
      simp only
      rcases hz : mapS f xs s1 with ⟨z, s2⟩
      rcases hz' : mapS f' xs s1' with ⟨z', s2'⟩
      rw [hz, hz'] at h3 h4
      simp only at h3 h4
      subst h3
      cases z with
      | error e => exact ⟨rfl, h4⟩
      | ok z => exact ⟨rfl, h4⟩

theorem same_encode [Ext] {r : Nat} {w w' : World} (h : SameAt r w w') (fuel : Nat)
    (types : List TypeStr) (args : PyVal) :
    (w.encode fuel r types args).1 = (w'.encode fuel r types args).1 := by
  unfold World.encode
  cases validateListLikeParam args with
  | error e => rfl
  | ok u =>
    have := (same_mapS (R := SameAt r) (f := fun s (w : World) => w.getEncoder fuel r s)
      (f' := fun s (w : World) => w.getEncoder fuel r s)
      (fun s st st' h => same_getEncoder h fuel s) types w w' h).1
    simp only
    generalize mapS (fun s (w : World) => w.getEncoder fuel r s) types w = p at this ⊢
    obtain ⟨es, w1⟩ := p
    generalize mapS (fun s (w : World) => w.getEncoder fuel r s) types w' = p at this ⊢
    obtain ⟨es', w1'⟩ := p
    simp only at this
    subst this
    cases es with
    | error e => rfl
    | ok es => rfl

theorem same_hasEncoder [Ext] {r : Nat} {w w' : World} (h : SameAt r w w') (fuel : Nat) (s : TypeStr) :
    (w.hasEncoder fuel r s).1 = (w'.hasEncoder fuel r s).1 ∧
      SameAt r (w.hasEncoder fuel r s).2 (w'.hasEncoder fuel r s).2 := by
  obtain ⟨h1, h2⟩ := same_getEncoder h fuel s
  unfold World.hasEncoder
  generalize w.getEncoder fuel r s = p at h1 h2 ⊢
  obtain ⟨y, w1⟩ := p
  generalize w'.getEncoder fuel r s = p at h1 h2 ⊢
  obtain ⟨y', w1'⟩ := p
  simp only at h1 h2
  subst h1
  cases y with
  | ok e => exact ⟨rfl, h2⟩
  | error e => cases e <;> exact ⟨rfl, h2⟩

theorem same_isEncodable [Ext] {r : Nat} {w w' : World} (h : SameAt r w w') (fuel : Nat)
    (s : TypeStr) (v : PyVal) :
    (w.isEncodable fuel r s v).1 = (w'.isEncodable fuel r s v).1 := by
  obtain ⟨h1, h2⟩ := same_hasEncoder h fuel s
  unfold World.isEncodable
  generalize w.hasEncoder fuel r s = p at h1 h2 ⊢
  obtain ⟨y, w1⟩ := p
  generalize w'.hasEncoder fuel r s = p at h1 h2 ⊢
  obtain ⟨y', w1'⟩ := p
  simp only at h1 h2
  subst h1
  cases y with
  | error e => rfl
  | ok b =>
    cases b with
    | false => rfl
    | true =>
      have h3 := (same_getEncoder h2 fuel s).1
      simp only
      generalize w1.getEncoder fuel r s = p at h3 ⊢
      obtain ⟨z, w2⟩ := p
      generalize w1'.getEncoder fuel r s = p at h3 ⊢
      obtain ⟨z', w2'⟩ := p
      simp only at h3
      subst h3
      cases z with
      | error e => rfl
      | ok e => rfl

theorem execS_rel {C σ : Type} {R : σ → σ → Prop} {look : TypeStr → σ → PyM C × σ}
    (hl : ∀ s st st', R st st' → (look s st).1 = (look s st').1 ∧ R (look s st).2 (look s st').2)
    (p : Plan C) : ∀ st st', R st st' →
    (p.execS look st).1 = (p.execS look st').1 ∧ R (p.execS look st).2 (p.execS look st').2 := by
  induction p with
  | ret r => intro st st' h; exact ⟨rfl, h⟩
  | ask s k ih =>
    intro st st' h
    obtain ⟨h1, h2⟩ := hl s st st' h
    rw [Plan.execS, Plan.execS]
    rcases hx : look s st with ⟨y, s1⟩
    rcases hx' : look s st' with ⟨y', s1'⟩
    rw [hx, hx'] at h1 h2
    simp only at h1 h2
    subst h1
    cases y with
    | error e => exact ⟨rfl, h2⟩
    | ok c => exact ih c s1 s1' h2

theorem cachedDecoder_flags [Ext] (m : Mapping (Reg Decoder)) (fuel : Nat) :
    ∀ s a (st st' : DecCache × Flags), st.1 = st'.1 →
    (cachedDecoder m fuel s a st).1 = (cachedDecoder m fuel s a st').1 ∧
      (cachedDecoder m fuel s a st).2.1 = (cachedDecoder m fuel s a st').2.1 := by
  induction fuel with
  | zero => intro s a st st' h; exact ⟨rfl, h⟩
  | succ fuel ih =>
    intro s a st st' h
    obtain ⟨c, fl⟩ := st
    obtain ⟨c', fl'⟩ := st'
    simp only at h
    subst h
    rw [cachedDecoder, cachedDecoder]
    cases c.lookup (s, a) with
    | some d => exact ⟨rfl, rfl⟩
    | none =>
      simp only
      cases m.getRegistration s with
      | error e => exact ⟨rfl, rfl⟩
      | ok v =>
        cases v with
        | obj d => exact ⟨rfl, rfl⟩
        | cls plan =>
          simp only
          have := execS_rel (R := fun st st' : DecCache × Flags => st.1 = st'.1)
            (look := fun s' => cachedDecoder m fuel s' .absent)
            (fun s' st st' h => ih s' .absent st st' h) (plan s) (c, fl) (c, fl') rfl
          generalize (plan s).execS (fun s' => cachedDecoder m fuel s' .absent) (c, fl) = p at this ⊢
          obtain ⟨y, c1, fl1⟩ := p
          generalize (plan s).execS (fun s' => cachedDecoder m fuel s' .absent) (c, fl') = p at this ⊢
          obtain ⟨y', c1', fl1'⟩ := p
          simp only at this
          obtain ⟨h1, h2⟩ := this
          subst h1
          subst h2
          cases y with
          | error e => exact ⟨rfl, rfl⟩
          | ok d => exact ⟨rfl, rfl⟩

theorem same_getDecoder [Ext] {r : Nat} {w w' : World} (h : SameAt r w w') (fuel : Nat) (s : TypeStr)
    (a : StrictArg) :
    (w.getDecoder fuel r s a).1 = (w'.getDecoder fuel r s a).1 ∧
      SameAt r (w.getDecoder fuel r s a).2 (w'.getDecoder fuel r s a).2 := by
  obtain ⟨h1, h2, _⟩ := getDecoder_touch h.inv.shape h.len fuel s a
  obtain ⟨h1', h2', _⟩ := getDecoder_touch h.inv'.shape h.len' fuel s a
  obtain ⟨h3, h4⟩ := cachedDecoder_flags (w'.view r).reg.decoders fuel s a
    ((w'.view r).dc, w.flags) ((w'.view r).dc, w'.flags) rfl
  refine ⟨by rw [h1, h1', h.view, h3], (looked_getDecoder h.inv r fuel s a).inv,
    (looked_getDecoder h.inv' r fuel s a).inv, by rw [h2.regs]; exact h.len, by rw [h2'.regs]; exact h.len', ?_⟩
  rw [h2.here, h2'.here, h.view, h4]

theorem decoders_free [Ext] {r : Nat} {g : Registry} (hg : NoSharedDecoders g) {w : World}
    (h : Has r g w) {fuel : Nat} {types : List TypeStr} {strict : Bool} {ds : List Decoder}
    (hd : (mapS (fun s (w : World) => w.getDecoder fuel r s (.kw strict)) types w).1 = .ok ds) :
    FlagFree (mkTupleD ds) := by
  obtain ⟨f, hf⟩ := (decoders_agree fuel types strict h).sound (by rw [hd]; simp)
  rw [hd] at hf
  refine flagFree_tuple fun d hd' => ?_
  obtain ⟨s, hs⟩ := mapPyM_mem _ _ hf d hd'
  exact decoderFuel_flagFree hg f s strict d hs

theorem same_decode [Ext] {r : Nat} {w w' : World} (h : SameAt r w w')
    (hg : NoSharedDecoders (w.view r).reg) (fuel : Nat) (types : List TypeStr) (data : PyVal)
    (strict : Bool) :
    (w.decode fuel r types data strict).1 = (w'.decode fuel r types data strict).1 := by
  unfold World.decode
  cases validateBytesParam data with
  | error e => rfl
  | ok b =>
    have := (same_mapS (R := SameAt r) (f := fun s (w : World) => w.getDecoder fuel r s (.kw strict))
      (f' := fun s (w : World) => w.getDecoder fuel r s (.kw strict))
      (fun s st st' h => same_getDecoder h fuel s (.kw strict)) types w w' h).1
    have hfree := fun ds hd => decoders_free (fuel := fuel) (types := types) (strict := strict) (ds := ds)
      hg ⟨h.inv, h.len, rfl⟩ hd
    simp only
    generalize mapS (fun s (w : World) => w.getDecoder fuel r s (.kw strict)) types w = p at this hfree ⊢
    obtain ⟨ds, w1⟩ := p
    generalize mapS (fun s (w : World) => w.getDecoder fuel r s (.kw strict)) types w' = p at this hfree ⊢
    obtain ⟨ds', w1'⟩ := p
    simp only at this hfree
    subst this
    cases ds with
    | error e => rfl
    | ok ds =>
      simp only
      rw [flagFree_call (hfree ds rfl) w1.flags w1'.flags]
      cases (mkTupleD ds).call w1'.flags (Stream.init b) with
      | error e => rfl
      | ok p => rfl

end EthAbi
