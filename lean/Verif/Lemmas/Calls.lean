import Verif.Lemmas.Steps

/-! # The results of codec calls on a registry object -/
namespace EthAbi
open Spec

theorem mapPyM_mono {α β : Type} {f f' : α → PyM β} (h : ∀ x, f x ≠ RE → f' x = f x) (xs : List α) :
    mapPyM f xs ≠ RE → mapPyM f' xs = mapPyM f xs := by
  induction xs with
  | nil => intro _; rfl
  | cons x xs ih =>
    intro hne
    rw [mapPyM] at hne ⊢
    rw [mapPyM]
    rcases ok_or_error (f x) with ⟨y, hy⟩ | ⟨e, he⟩
    · rw [h x (by rw [hy]; simp), hy]
      rw [hy] at hne
      simp only [ok_bind] at hne ⊢
      rw [ih (by intro h0; rw [h0] at hne; exact hne rfl)]
    · rw [he] at hne
      have hne' : (Except.error e : PyM β) ≠ RE := by
        intro h0; injection h0 with h0; subst h0; exact hne rfl
      rw [h x (by rw [he]; exact hne'), he]
      rfl

theorem mapS_agrees {α β σ : Type} {Ok : σ → Prop} {pure : Nat → α → PyM β} {fuel : Nat}
    (mono : ∀ f f' x, f ≤ f' → pure f x ≠ RE → pure f' x = pure f x)
    {look : α → σ → PyM β × σ}
    (hl : ∀ x st, Ok st → Agrees Ok (fun f => pure f x) fuel (look x st)) (xs : List α) :
    ∀ st, Ok st → Agrees Ok (fun f => mapPyM (pure f) xs) fuel (mapS look xs st) := by
  induction xs with
  | nil => intro st h; exact ⟨h, fun _ => ⟨0, rfl⟩, fun _ => rfl⟩
  | cons x xs ih =>
    intro st h
    obtain ⟨h1, h2, h3⟩ := hl x st h
    rw [mapS]
    rcases hx : look x st with ⟨r, st'⟩
    rw [hx] at h1 h2 h3
    simp only at h1 h2 h3
    cases r with
    | error e =>
      refine ⟨h1, fun hne => ?_, fun hne => ?_⟩
      · have : (Except.error e : PyM β) ≠ RE := by
          intro h0; injection h0 with h0; subst h0; exact hne rfl
        obtain ⟨f, hf⟩ := h2 this
        exact ⟨f, by show mapPyM (pure f) (x :: xs) = .error e; rw [mapPyM, hf]; rfl⟩
      · have hx' : pure fuel x ≠ RE := by
          intro h0
          exact hne (by simp only [mapPyM, h0]; rfl)
        show Except.error e = mapPyM (pure fuel) (x :: xs)
        rw [mapPyM, ← h3 hx']; rfl
    | ok y =>
      obtain ⟨g1, g2, g3⟩ := ih st' h1
      simp only
      rcases hy : mapS look xs st' with ⟨rs, st''⟩
      rw [hy] at g1 g2 g3
      simp only at g1 g2 g3
      have hpure : ∀ f, pure f x = .ok y → mapPyM (pure f) (x :: xs) =
          (mapPyM (pure f) xs >>= fun ys => .ok (y :: ys)) := by
        intro f hf; rw [mapPyM, hf]; rfl
      have complete : ∀ r : PyM (List β), (r = (rs >>= fun ys => .ok (y :: ys))) →
          mapPyM (pure fuel) (x :: xs) ≠ RE → r = mapPyM (pure fuel) (x :: xs) := by
        intro r hr hne
        have hx' : pure fuel x ≠ RE := by
          intro h0
          exact hne (by simp only [mapPyM, h0]; rfl)
        have e1 := (h3 hx').symm
        rw [hpure fuel e1] at hne ⊢
        have e2 := g3 (by intro h0; rw [h0] at hne; exact hne rfl)
        rw [hr, e2]
      cases rs with
      | error e =>
        refine ⟨g1, fun hne => ?_, fun hne => complete _ rfl hne⟩
        have hne' : (Except.error e : PyM (List β)) ≠ RE := hne
        obtain ⟨f, hf⟩ := h2 (by simp)
        obtain ⟨f', hf'⟩ := g2 hne'
        refine ⟨max f f', ?_⟩
        have e1 : pure (max f f') x = .ok y := by
          rw [mono f _ x (Nat.le_max_left _ _) (by rw [hf]; simp), hf]
        show mapPyM (pure (max f f')) (x :: xs) = .error e
        rw [hpure _ e1, mapPyM_mono (f := pure f')
          (fun x' hx' => mono f' _ x' (Nat.le_max_right _ _) hx') xs (by rw [hf']; exact hne'), hf']
        rfl
      | ok ys =>
        refine ⟨g1, fun hne => ?_, fun hne => complete _ rfl hne⟩
        obtain ⟨f, hf⟩ := h2 (by simp)
        obtain ⟨f', hf'⟩ := g2 (by simp)
        refine ⟨max f f', ?_⟩
        have e1 : pure (max f f') x = .ok y := by
          rw [mono f _ x (Nat.le_max_left _ _) (by rw [hf]; simp), hf]
        show mapPyM (pure (max f f')) (x :: xs) = .ok (y :: ys)
        rw [hpure _ e1, mapPyM_mono (f := pure f')
          (fun x' hx' => mono f' _ x' (Nat.le_max_right _ _) hx') xs (by rw [hf']; simp), hf']
        rfl

/-- The heaps in which object `r` has the registrations `g`. -/
def Has [Ext] (r : Nat) (g : Registry) (w : World) : Prop :=
  Inv w ∧ r < w.regs.length ∧ (w.view r).reg = g

theorem has_looked [Ext] {r : Nat} {g : Registry} {w w' : World} (h : Has r g w) (hl : Looked w w' r) :
    Has r g w' :=
  ⟨hl.inv, by rw [hl.regs]; exact h.2.1, hl.reg.trans h.2.2⟩

theorem getEncoder_agrees [Ext] {r : Nat} {g : Registry} {w : World} (h : Has r g w) (fuel : Nat)
    (s : TypeStr) :
    Agrees (Has r g) (fun f => getEncoderFuel g.encoders f s) fuel (w.getEncoder fuel r s) := by
  obtain ⟨hw, hr, hg⟩ := h
  obtain ⟨h1, _, _⟩ := getEncoder_touch hw.shape hr fuel s
  have := cachedEncoder_agrees _ fuel s _ (hw.good r hr).enc
  refine ⟨has_looked ⟨hw, hr, hg⟩ (looked_getEncoder hw r fuel s), ?_, ?_⟩
  · rw [h1, ← hg]; exact this.sound
  · rw [h1, ← hg]; exact this.complete

theorem getDecoder_agrees [Ext] {r : Nat} {g : Registry} {w : World} (h : Has r g w) (fuel : Nat)
    (s : TypeStr) (a : StrictArg) :
    Agrees (Has r g) (fun f => getDecoderFuel g.decoders f s a.value) fuel
      (w.getDecoder fuel r s a) := by
  obtain ⟨hw, hr, hg⟩ := h
  obtain ⟨h1, _, _⟩ := getDecoder_touch hw.shape hr fuel s a
  have := cachedDecoder_agrees _ fuel s a _ w.flags (hw.good r hr).dec
  refine ⟨has_looked ⟨hw, hr, hg⟩ (looked_getDecoder hw r fuel s a), ?_, ?_⟩
  · rw [h1, ← hg]; exact this.sound
  · rw [h1, ← hg]; exact this.complete

theorem encoders_agree [Ext] {r : Nat} {g : Registry} (fuel : Nat) (types : List TypeStr) {w : World}
    (h : Has r g w) :
    Agrees (Has r g) (fun f => mapPyM (getEncoderFuel g.encoders f) types) fuel
      (mapS (fun s (w : World) => w.getEncoder fuel r s) types w) :=
  mapS_agrees (pure := getEncoderFuel g.encoders) (fun _ _ _ hf hne => encoderFuel_mono _ hf hne)
    (fun s _ hw => getEncoder_agrees hw fuel s) types w h

theorem decoders_agree [Ext] {r : Nat} {g : Registry} (fuel : Nat) (types : List TypeStr)
    (strict : Bool) {w : World} (h : Has r g w) :
    Agrees (Has r g) (fun f => mapPyM (fun s => getDecoderFuel g.decoders f s strict) types) fuel
      (mapS (fun s (w : World) => w.getDecoder fuel r s (.kw strict)) types w) :=
  mapS_agrees (pure := fun f s => getDecoderFuel g.decoders f s strict)
    (fun _ _ _ hf hne => decoderFuel_mono _ hf hne)
    (fun s _ hw => getDecoder_agrees hw fuel s (.kw strict)) types w h

theorem bind_ne {α β : Type} {x : PyM α} {k : α → PyM β} (h : (x >>= k) ≠ RE) : x ≠ RE := by
  intro hx; rw [hx] at h; exact h rfl

theorem encode_agrees [Ext] {r : Nat} {g : Registry} (fuel : Nat) (types : List TypeStr) (args : PyVal)
    {w : World} (h : Has r g w) :
    Agrees (Has r g) (fun f => encodeAt g f types args) fuel (w.encode fuel r types args) := by
  unfold World.encode encodeAt
  cases validateListLikeParam args with
  | error e => exact ⟨h, fun _ => ⟨0, rfl⟩, fun _ => rfl⟩
  | ok u =>
    obtain ⟨h1, h2, h3⟩ := encoders_agree fuel types h
    simp only [ok_bind]
    rcases hx : mapS (fun s (w : World) => w.getEncoder fuel r s) types w with ⟨es, w'⟩
    rw [hx] at h1 h2 h3
    simp only at h1 h2 h3
    cases es with
    | error e =>
      refine ⟨h1, fun hne => ?_, fun hne => ?_⟩
      · have hne' : (Except.error e : PyM (List Encoder)) ≠ RE := by
          intro h0; injection h0 with h0; subst h0; exact hne rfl
        obtain ⟨f, hf⟩ := h2 hne'
        exact ⟨f, by simp only [hf]; rfl⟩
      · simp only [← h3 (bind_ne hne)]; rfl
    | ok es =>
      obtain ⟨f, hf⟩ := h2 (by simp)
      refine ⟨h1, fun _ => ⟨f, by simp only [hf]; rfl⟩, fun hne => ?_⟩
      simp only [← h3 (bind_ne hne)]; rfl

theorem hasEncoder_complete [Ext] {r : Nat} {g : Registry} (fuel : Nat) (s : TypeStr)
    {w : World} (h : Has r g w) (hne : getEncoderFuel g.encoders fuel s ≠ RE) :
    (w.hasEncoder fuel r s).1 = hasEncoderAt g fuel s ∧ Has r g (w.hasEncoder fuel r s).2 := by
  refine ⟨?_, has_looked h (looked_hasEncoder h.1 r fuel s)⟩
  have := (getEncoder_agrees h fuel s).complete hne
  unfold World.hasEncoder hasEncoderAt
  rw [← this]
  rcases w.getEncoder fuel r s with ⟨y, w'⟩
  cases y with
  | ok e => rfl
  | error e => cases e <;> rfl

theorem isEncodable_complete [Ext] {r : Nat} {g : Registry} (fuel : Nat) (s : TypeStr) (v : PyVal)
    {w : World} (h : Has r g w) (hne : getEncoderFuel g.encoders fuel s ≠ RE) :
    (w.isEncodable fuel r s v).1 = isEncodableAt g fuel s v := by
  obtain ⟨h1, h2⟩ := hasEncoder_complete fuel s h hne
  unfold World.isEncodable
  rcases hx : w.hasEncoder fuel r s with ⟨y, w1⟩
  rw [hx] at h1 h2
  simp only at h1 h2
  have h3 := (getEncoder_agrees h2 fuel s).complete hne
  unfold hasEncoderAt at h1
  unfold isEncodableAt
  rcases hy : w1.getEncoder fuel r s with ⟨z, w2⟩
  rw [hy] at h3
  simp only at h3
  rw [← h3] at h1 ⊢
  cases z with
  | ok e => subst h1; simp only [hy]
  | error e => cases e <;> subst h1 <;> rfl

theorem decode_agrees [Ext] {r : Nat} {g : Registry} (fuel : Nat) (types : List TypeStr) (data : PyVal)
    (strict : Bool) {w : World} (h : Has r g w) :
    Agrees (Has r g)
      (fun f => decodeAt g (w.decode fuel r types data strict).2.flags f types data strict) fuel
      (w.decode fuel r types data strict) := by
  unfold World.decode decodeAt
  cases validateBytesParam data with
  | error e => exact ⟨h, fun _ => ⟨0, rfl⟩, fun _ => rfl⟩
  | ok b =>
    obtain ⟨h1, h2, h3⟩ := decoders_agree fuel types strict h
    simp only [ok_bind]
    rcases hx : mapS (fun s (w : World) => w.getDecoder fuel r s (.kw strict)) types w with ⟨ds, w'⟩
    rw [hx] at h1 h2 h3
    simp only at h1 h2 h3
    cases ds with
    | error e =>
      refine ⟨h1, fun hne => ?_, fun hne => ?_⟩
      · have hne' : (Except.error e : PyM (List Decoder)) ≠ RE := by
          intro h0; injection h0 with h0; subst h0; exact hne rfl
        obtain ⟨f, hf⟩ := h2 hne'
        exact ⟨f, by simp only [hf]; rfl⟩
      · simp only [← h3 (bind_ne hne)]; rfl
    | ok ds =>
      obtain ⟨f, hf⟩ := h2 (by simp)
      simp only
      cases hd : (mkTupleD ds).call w'.flags (Stream.init b) with
      | error e =>
        refine ⟨h1, fun _ => ⟨f, by simp only [hf, ok_bind, hd]; rfl⟩, fun hne => ?_⟩
        simp only [← h3 (bind_ne hne), ok_bind, hd]; rfl
      | ok p =>
        refine ⟨h1, fun _ => ⟨f, by simp only [hf, ok_bind, hd]; rfl⟩, fun hne => ?_⟩
        simp only [← h3 (bind_ne hne), ok_bind, hd]; rfl

/-! ## Monotonicity -/

theorem encodeAt_mono [Ext] (g : Registry) (types : List TypeStr) (args : PyVal) (n n' : Nat)
    (hn : n ≤ n') (h : encodeAt g n types args ≠ RE) : encodeAt g n' types args = encodeAt g n types args := by
  unfold encodeAt at h ⊢
  cases hv : validateListLikeParam args with
  | error e => rfl
  | ok u =>
    rw [hv] at h
    simp only [ok_bind] at h ⊢
    rw [mapPyM_mono (f := getEncoderFuel g.encoders n) (f' := getEncoderFuel g.encoders n')
      (fun s hs => encoderFuel_mono _ hn hs) types (bind_ne h)]

theorem decodeAt_mono [Ext] (g : Registry) (fl : Flags) (types : List TypeStr) (data : PyVal)
    (strict : Bool) (n n' : Nat) (hn : n ≤ n') (h : decodeAt g fl n types data strict ≠ RE) :
    decodeAt g fl n' types data strict = decodeAt g fl n types data strict := by
  unfold decodeAt at h ⊢
  cases hv : validateBytesParam data with
  | error e => rfl
  | ok u =>
    rw [hv] at h
    simp only [ok_bind] at h ⊢
    rw [mapPyM_mono (f := fun s => getDecoderFuel g.decoders n s strict)
      (f' := fun s => getDecoderFuel g.decoders n' s strict)
      (fun s hs => decoderFuel_mono _ hn hs) types (bind_ne h)]

/-! ## Decoders that keep no `strict` in a registered object -/

theorem planFree_exec {look : TypeStr → PyM Decoder}
    (hl : ∀ s d, look s = .ok d → FlagFree d) (p : Plan Decoder) (hp : PlanFree p) :
    ∀ d, p.exec look = .ok d → FlagFree d := by
  induction p with
  | ret r => intro d hd; exact hp d hd
  | ask s k ih =>
    intro d hd
    rw [Plan.exec] at hd
    cases hs : look s with
    | error e => rw [hs] at hd; cases hd
    | ok c =>
      rw [hs] at hd
      exact ih c (hp c (hl s c hs)) d hd

theorem flagFree_setStrict {d : Decoder} (h : FlagFree d) (b : Bool) : FlagFree (d.setStrict b) := by
  obtain ⟨⟨b', hb⟩, h2⟩ := h
  unfold Decoder.setStrict
  rw [hb]
  by_cases hd : d.dyn = true
  · rw [if_pos hd]; exact ⟨⟨b, rfl⟩, h2⟩
  · rw [if_neg hd]; exact ⟨⟨b', hb⟩, h2⟩

theorem results_sub [Ext] {V : Type} {s : TypeStr} (vs : List (Pred × V)) : ∀ rs,
    Mapping.results s vs = .ok rs → ∀ q ∈ rs, q ∈ vs := by
  induction vs with
  | nil => intro rs h q hq; injection h with h; subst h; exact hq
  | cons v vs ih =>
    intro rs h q hq
    rw [Mapping.results] at h
    obtain ⟨b, _, h⟩ := bind_eq_ok.1 h
    obtain ⟨rs', h', h⟩ := bind_eq_ok.1 h
    injection h with h
    cases b
    · subst h; exact List.mem_cons_of_mem _ (ih rs' h' q hq)
    · subst h
      rcases List.mem_cons.1 hq with hq | hq
      · subst hq; exact List.mem_cons_self
      · exact List.mem_cons_of_mem _ (ih rs' h' q hq)

theorem find_mem [Ext] {V : Type} {m : Mapping V} {s : TypeStr} {v : V} (h : m.find s = .ok v) :
    ∃ p, (p, v) ∈ m.values := by
  unfold Mapping.find at h
  obtain ⟨rs, h1, h2⟩ := bind_eq_ok.1 h
  match rs, h1, h2 with
  | [], _, h2 => cases h2
  | [q], h1, h2 =>
    injection h2 with h2
    subst h2
    exact ⟨q.1, results_sub _ _ h1 q List.mem_cons_self⟩
  | _ :: _ :: _, _, h2 => cases h2

theorem getRegistration_mem [Ext] {V : Type} {m : Mapping V} {s : TypeStr} {v : V}
    (h : m.getRegistration s = .ok v) : ∃ p, (p, v) ∈ m.values := by
  unfold Mapping.getRegistration at h
  split at h
  · obtain ⟨_, _, h⟩ := bind_eq_ok.1 h; cases h
  · split at h
    · obtain ⟨_, _, h⟩ := bind_eq_ok.1 h; cases h
    · cases h
  · exact find_mem h

theorem decoderFuel_flagFree [Ext] {g : Registry} (hg : NoSharedDecoders g) (f : Nat) : ∀ s b d,
    getDecoderFuel g.decoders f s b = .ok d → FlagFree d := by
  induction f with
  | zero => intro s b d h; cases h
  | succ f ih =>
    intro s b d h
    rw [getDecoderFuel] at h
    cases hm : g.decoders.getRegistration s with
    | error e => rw [hm] at h; cases h
    | ok v =>
      obtain ⟨p, hp⟩ := getRegistration_mem hm
      have hf := hg _ hp
      rw [hm] at h
      cases v with
      | obj d' => injection h with h; subst h; exact flagFree_setStrict hf b
      | cls plan =>
        obtain ⟨d', h1, h2⟩ := bind_eq_ok.1 h
        injection h2 with h2
        subst h2
        exact flagFree_setStrict (planFree_exec (fun s d h => ih s true d h) (plan s) (hf s) d' h1) b

theorem mapPyM_mem {α β : Type} {f : α → PyM β} (xs : List α) : ∀ ys, mapPyM f xs = .ok ys →
    ∀ y ∈ ys, ∃ x, f x = .ok y := by
  induction xs with
  | nil => intro ys h y hy; injection h with h; subst h; cases hy
  | cons x xs ih =>
    intro ys h y hy
    rw [mapPyM] at h
    obtain ⟨y', h1, h⟩ := bind_eq_ok.1 h
    obtain ⟨ys', h2, h⟩ := bind_eq_ok.1 h
    injection h with h
    subst h
    rcases List.mem_cons.1 hy with hy | hy
    · subst hy; exact ⟨x, h1⟩
    · exact ih ys' h2 y hy

theorem flagFree_call {d : Decoder} (h : FlagFree d) (fl fl' : Flags) (st : Stream) :
    d.call fl st = d.call fl' st := by
  obtain ⟨⟨b, hb⟩, h2⟩ := h
  unfold Decoder.call Decoder.isStrict
  rw [hb]
  exact h2 fl fl' b st

theorem flagFree_headTail {d : Decoder} (h : FlagFree d) : FlagFree (headTail d) := by
  refine ⟨⟨true, rfl⟩, fun fl fl' b st => ?_⟩
  show (decodeUint256 st >>= fun p => p.2.pushFrame p.1 >>= fun st => d.call fl st >>= fun q =>
      q.2.popFrame >>= fun st => pure (q.1, st)) =
    (decodeUint256 st >>= fun p => p.2.pushFrame p.1 >>= fun st => d.call fl' st >>= fun q =>
      q.2.popFrame >>= fun st => pure (q.1, st))
  simp only [flagFree_call h fl fl']

theorem flagFree_wrapDyn {d : Decoder} (h : FlagFree d) : FlagFree (wrapDyn d) := by
  unfold wrapDyn
  split
  · exact flagFree_headTail h
  · exact h

theorem tupleCheckLoop_free (fl fl' : Flags) (a b : Nat) (ds : List Decoder)
    (h : ∀ d ∈ ds, FlagFree d) : ∀ st,
    tupleCheckLoop fl a b ds st = tupleCheckLoop fl' a b ds st := by
  induction ds with
  | nil => intro st; rfl
  | cons d ds ih =>
    intro st
    have ih' := ih fun d hd => h d (List.mem_cons_of_mem _ hd)
    have hd := flagFree_call (h d List.mem_cons_self) fl fl'
    rw [tupleCheckLoop, tupleCheckLoop]
    simp only [hd, ih']

theorem decodeEach_free (fl fl' : Flags) (ds : List Decoder)
    (h : ∀ d ∈ ds, FlagFree d) : ∀ st, decodeEach fl ds st = decodeEach fl' ds st := by
  induction ds with
  | nil => intro st; rfl
  | cons d ds ih =>
    intro st
    have ih' := ih fun d hd => h d (List.mem_cons_of_mem _ hd)
    have hd := flagFree_call (h d List.mem_cons_self) fl fl'
    rw [decodeEach, decodeEach]
    simp only [hd, ih']

theorem flagFree_tuple {ds : List Decoder} (h : ∀ d ∈ ds, FlagFree d) : FlagFree (mkTupleD ds) := by
  refine ⟨⟨true, rfl⟩, fun fl fl' b st => ?_⟩
  have h' : ∀ d ∈ ds.map wrapDyn, FlagFree d := by
    intro d hd
    obtain ⟨d', hd', rfl⟩ := List.mem_map.1 hd
    exact flagFree_wrapDyn (h d' hd')
  show tupleDecode fl (ds.map wrapDyn) st = tupleDecode fl' (ds.map wrapDyn) st
  unfold tupleDecode tupleValidatePointers
  simp only [tupleCheckLoop_free fl fl' _ _ _ h', decodeEach_free fl fl' _ h']

theorem decodeN_free (fl fl' : Flags) {d : Decoder} (h : FlagFree d) (n : Nat) : ∀ st,
    decodeN fl d n st = decodeN fl' d n st := by
  induction n with
  | zero => intro st; rfl
  | succ n ih =>
    intro st
    rw [decodeN, decodeN]
    simp only [flagFree_call h fl fl', ih]

theorem flagFree_wrapItem {d d' : Decoder} (h : FlagFree d) (e : wrapItem d = .ok d') : FlagFree d' := by
  unfold wrapItem at e
  split at e
  · cases e
  · injection e with e
    subst e
    split
    · exact flagFree_headTail h
    · exact h

theorem flagFree_array {k : Option Nat} {d d' : Decoder} (h : FlagFree d) (e : mkArrayD k d = .ok d') :
    FlagFree d' := by
  cases k with
  | none =>
    obtain ⟨i, h1, h2⟩ := bind_eq_ok.1 (show mkDynamicArrayD d = .ok d' from e)
    have hi := flagFree_wrapItem h h1
    injection h2 with h2
    subst h2
    refine ⟨⟨true, rfl⟩, fun fl fl' b st => ?_⟩
    show dynamicArrayDecode fl i st = dynamicArrayDecode fl' i st
    unfold dynamicArrayDecode
    simp only [decodeN_free fl fl' hi]
  | some n =>
    obtain ⟨i, h1, h2⟩ := bind_eq_ok.1 (show mkSizedArrayD n d = .ok d' from e)
    have hi := flagFree_wrapItem h h1
    injection h2 with h2
    subst h2
    refine ⟨⟨true, rfl⟩, fun fl fl' b st => ?_⟩
    show sizedArrayDecode fl i n st = sizedArrayDecode fl' i n st
    unfold sizedArrayDecode
    simp only [decodeN_free fl fl' hi]

theorem decodeAt_free [Ext] {g : Registry} (hg : NoSharedDecoders g) (fl fl' : Flags) (fuel : Nat)
    (types : List TypeStr) (data : PyVal) (strict : Bool) :
    decodeAt g fl fuel types data strict = decodeAt g fl' fuel types data strict := by
  unfold decodeAt
  cases validateBytesParam data with
  | error e => rfl
  | ok b =>
    simp only [ok_bind]
    cases hd : mapPyM (fun s => getDecoderFuel g.decoders fuel s strict) types with
    | error e => rfl
    | ok ds =>
      have hf : FlagFree (mkTupleD ds) := flagFree_tuple fun d hd' => by
        obtain ⟨s, hs⟩ := mapPyM_mem _ _ hd d hd'
        exact decoderFuel_flagFree hg fuel s strict d hs
      simp only [ok_bind, flagFree_call hf fl fl']

end EthAbi
