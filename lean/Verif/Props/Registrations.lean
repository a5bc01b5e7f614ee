import Verif.Lemmas.Mirror
import Verif.Props.Caching

/-!
# C27, C30, C32: which registration serves a lookup, and what `register` and `unregister` leave

As in `Props/Caching.lean`, `h` is an arbitrary history and `(Plain.run [] h)[r]? = some g` says that
registry `r` exists and has the registrations `g` after it.
-/
namespace EthAbi
open Spec

/-! ## C27: a lookup is served by the unique matching registration -/

/-- `get_encoder` returns a coder only if exactly one registration matches the type string and no
matcher raises; the coder is that registration's. -/
theorem C27_encoder_unique [Ext] (h : History) {r : Nat} {g : Registry}
    (hg : (Plain.run [] h)[r]? = some g) (fuel : Nat) (s : TypeStr) (e : Encoder)
    (he : ((World.empty.run h).getEncoder fuel r s).1 = .ok e) :
    OnlyMatch g.encoders s (.obj e) ∨
      ∃ plan n, OnlyMatch g.encoders s (.cls plan) ∧
        (plan s).exec (getEncoderFuel g.encoders n) = .ok e := by
  obtain ⟨n, hn⟩ := (C28_getEncoder h hg fuel s).1 (by rw [he]; simp)
  have hn : getEncoderFuel g.encoders (n + 1) s = _ := hn (n + 1) (Nat.le_succ n)
  rw [he, getEncoderFuel] at hn
  cases hr : g.encoders.getRegistration s with
  | error x => rw [hr] at hn; cases hn
  | ok v =>
    have hv := (find_iff _ _ _).1 ((getRegistration_ok _ _ _).1 hr)
    rw [hr] at hn
    cases v with
    | obj e' => injection hn with hn; subst hn; exact Or.inl hv
    | cls plan => exact Or.inr ⟨plan, n, hv, hn⟩

/-- Conversely the only match is used: a callable or coder object as it is, a class through its
`from_type_str`. -/
theorem C27_encoder_served [Ext] (h : History) {r : Nat} {g : Registry}
    (hg : (Plain.run [] h)[r]? = some g) (fuel : Nat) (s : TypeStr) :
    (∀ e, OnlyMatch g.encoders s (.obj e) → ((World.empty.run h).getEncoder (fuel + 1) r s).1 = .ok e) ∧
    (∀ plan, OnlyMatch g.encoders s (.cls plan) →
      (plan s).exec (getEncoderFuel g.encoders fuel) ≠ .error .recursionError →
      ((World.empty.run h).getEncoder (fuel + 1) r s).1 = (plan s).exec (getEncoderFuel g.encoders fuel)) := by
  refine ⟨fun e ho => ?_, fun plan ho hne => ?_⟩
  · have hx : getEncoderFuel g.encoders (fuel + 1) s = .ok e := by
      rw [getEncoderFuel, (getRegistration_ok _ _ _).2 ((find_iff _ _ _).2 ho)]
    rw [(C28_getEncoder h hg (fuel + 1) s).2 (by rw [hx]; simp), hx]
  · have hx : getEncoderFuel g.encoders (fuel + 1) s = (plan s).exec (getEncoderFuel g.encoders fuel) := by
      rw [getEncoderFuel, (getRegistration_ok _ _ _).2 ((find_iff _ _ _).2 ho)]
    rw [(C28_getEncoder h hg (fuel + 1) s).2 (by rw [hx]; exact hne), hx]

theorem C27_decoder_unique [Ext] (h : History) {r : Nat} {g : Registry}
    (hg : (Plain.run [] h)[r]? = some g) (fuel : Nat) (s : TypeStr) (a : StrictArg) (d : Decoder)
    (he : ((World.empty.run h).getDecoder fuel r s a).1 = .ok d) :
    (∃ d', OnlyMatch g.decoders s (.obj d') ∧ d = d'.setStrict a.value) ∨
      ∃ plan n d', OnlyMatch g.decoders s (.cls plan) ∧
        (plan s).exec (fun s' => getDecoderFuel g.decoders n s' true) = .ok d' ∧
        d = d'.setStrict a.value := by
  obtain ⟨n, hn⟩ := (C28_getDecoder h hg fuel s a).1 (by rw [he]; simp)
  have hn : getDecoderFuel g.decoders (n + 1) s a.value = _ := hn (n + 1) (Nat.le_succ n)
  rw [he, getDecoderFuel] at hn
  cases hr : g.decoders.getRegistration s with
  | error x => rw [hr] at hn; cases hn
  | ok v =>
    have hv := (find_iff _ _ _).1 ((getRegistration_ok _ _ _).1 hr)
    rw [hr] at hn
    cases v with
    | obj d' => injection hn with hn; exact Or.inl ⟨d', hv, hn.symm⟩
    | cls plan =>
      obtain ⟨d', h1, h2⟩ := bind_eq_ok.1 hn
      injection h2 with h2
      exact Or.inr ⟨plan, n, d', hv, h1, h2.symm⟩

theorem C27_decoder_served [Ext] (h : History) {r : Nat} {g : Registry}
    (hg : (Plain.run [] h)[r]? = some g) (fuel : Nat) (s : TypeStr) (a : StrictArg) (d : Decoder) :
    (OnlyMatch g.decoders s (.obj d) →
      ((World.empty.run h).getDecoder (fuel + 1) r s a).1 = .ok (d.setStrict a.value)) ∧
    (∀ plan, OnlyMatch g.decoders s (.cls plan) →
      (plan s).exec (fun s' => getDecoderFuel g.decoders fuel s' true) = .ok d →
      ((World.empty.run h).getDecoder (fuel + 1) r s a).1 = .ok (d.setStrict a.value)) := by
  refine ⟨fun ho => ?_, fun plan ho hd => ?_⟩
  · have hx : getDecoderFuel g.decoders (fuel + 1) s a.value = .ok (d.setStrict a.value) := by
      rw [getDecoderFuel, (getRegistration_ok _ _ _).2 ((find_iff _ _ _).2 ho)]
    rw [(C28_getDecoder h hg (fuel + 1) s a).2 (by rw [hx]; simp), hx]
  · have hx : getDecoderFuel g.decoders (fuel + 1) s a.value = .ok (d.setStrict a.value) := by
      rw [getDecoderFuel, (getRegistration_ok _ _ _).2 ((find_iff _ _ _).2 ho)]
      simp only [hd]
      rfl
    rw [(C28_getDecoder h hg (fuel + 1) s a).2 (by rw [hx]; simp), hx]

/-- Two matching registrations make the lookup raise `MultipleEntriesFound`.  Missing: type strings
that do not parse and contain "No matching"; see `C27_multiple_false`. -/
theorem C27_multiple_partial [Ext] (h : History) {r : Nat} {g : Registry}
    (hg : (Plain.run [] h)[r]? = some g) (fuel : Nat) (s : TypeStr) (a : StrictArg)
    (hs : isInfix t!"No matching" s = false ∨ ∃ t, parse s = .ok t) :
    (AllAnswer g.encoders s → TwoMatch g.encoders s →
      ((World.empty.run h).getEncoder (fuel + 1) r s).1 = .error .multipleEntriesFound) ∧
    (AllAnswer g.decoders s → TwoMatch g.decoders s →
      ((World.empty.run h).getDecoder (fuel + 1) r s a).1 = .error .multipleEntriesFound) := by
  refine ⟨fun ha ht => ?_, fun ha ht => ?_⟩
  · have hx : getEncoderFuel g.encoders (fuel + 1) s = .error .multipleEntriesFound := by
      rw [getEncoderFuel, getRegistration_two (find_two _ _ ha ht) hs]
    rw [(C28_getEncoder h hg (fuel + 1) s).2 (by rw [hx]; simp), hx]
  · have hx : getDecoderFuel g.decoders (fuel + 1) s a.value = .error .multipleEntriesFound := by
      rw [getDecoderFuel, getRegistration_two (find_two _ _ ha ht) hs]
    rw [(C28_getDecoder h hg (fuel + 1) s a).2 (by rw [hx]; simp), hx]

/-- A registry in which two matchers match every type string. -/
def Ex.twice : History :=
  [(9, .new),
   (9, .registerEncoder 0 (.pred ⟨0, .user 0 fun _ => .ok true⟩) (.obj ⟨none, none, fun _ => .ok [1]⟩) none),
   (9, .registerEncoder 0 (.pred ⟨1, .user 1 fun _ => .ok true⟩) (.obj ⟨none, none, fun _ => .ok [2]⟩) none)]

/-- For a type string that does not parse and contains "No matching", a `ParseError` is raised. -/
theorem C27_multiple_false : ¬ ∀ [Ext] (h : History) (r : Nat) (g : Registry) (fuel : Nat) (s : TypeStr),
    (Plain.run [] h)[r]? = some g → AllAnswer g.encoders s → TwoMatch g.encoders s →
    ∃ w, (World.empty.run h).getEncoder (fuel + 1) r s = (.error .multipleEntriesFound, w) := by
  intro hall
  have hw : letI := Ex.ext
      ((World.empty.run Ex.twice).encode 9 0 [t!"No matching"] (.list [.int 7])).1 = .error .parseError := by
    decide +kernel
  let := Ex.ext
  obtain ⟨w, h1⟩ := hall Ex.twice 0 _ 8 t!"No matching" rfl
    (fun q hq => by
      change q ∈ [_, _] at hq
      rcases List.mem_cons.1 hq with rfl | hq
      · exact ⟨true, rfl⟩
      · rw [List.mem_singleton.1 hq]; exact ⟨true, rfl⟩)
    ⟨[], _, [], _, [], rfl, rfl, rfl⟩
  unfold World.encode at hw
  rw [show validateListLikeParam (.list [.int 7]) = .ok () from rfl] at hw
  simp only [mapS, h1] at hw
  cases hw

/-- No matching registration: `NoEntriesFound`, or `ParseError` and the like if the type string does
not parse. -/
theorem C27_none [Ext] (h : History) {r : Nat} {g : Registry}
    (hg : (Plain.run [] h)[r]? = some g) (fuel : Nat) (s : TypeStr) (a : StrictArg) :
    (NoMatch g.encoders s → parse s ≠ .error .recursionError →
      ((World.empty.run h).getEncoder (fuel + 1) r s).1 =
        (do let _ ← parse s; throw .noEntriesFound)) ∧
    (NoMatch g.decoders s → parse s ≠ .error .recursionError →
      ((World.empty.run h).getDecoder (fuel + 1) r s a).1 =
        (do let _ ← parse s; throw .noEntriesFound)) := by
  refine ⟨fun hn hp => ?_, fun hn hp => ?_⟩
  · have hx : getEncoderFuel g.encoders (fuel + 1) s = (do let _ ← parse s; throw .noEntriesFound) := by
      rw [getEncoderFuel]
      unfold Mapping.getRegistration
      rw [find_none _ _ hn]
      cases parse s <;> rfl
    rw [(C28_getEncoder h hg (fuel + 1) s).2 (by rw [hx]; exact bind_throw_ne hp (by simp)), hx]
  · have hx : getDecoderFuel g.decoders (fuel + 1) s a.value = (do let _ ← parse s; throw .noEntriesFound) := by
      rw [getDecoderFuel]
      unfold Mapping.getRegistration
      rw [find_none _ _ hn]
      cases parse s <;> rfl
    rw [(C28_getDecoder h hg (fuel + 1) s a).2 (by rw [hx]; exact bind_throw_ne hp (by simp)), hx]

/-- The calls `registry.register_encoder(...)` for a list of registrations. -/
def encoderCalls (r : Nat) (rs : List (LookupArg × Reg Encoder × Option (List Char))) : History :=
  rs.map fun x => (0, .registerEncoder r x.1 x.2.1 x.2.2)

/-- The calls `registry.register_decoder(...)`. -/
def decoderCalls (r : Nat) (rs : List (LookupArg × Reg Decoder × Option (List Char))) : History :=
  rs.map fun x => (0, .registerDecoder r x.1 x.2.1 x.2.2)

theorem encoderCalls_run (r : Nat) : ∀ (rs : List (LookupArg × Reg Encoder × Option (List Char)))
    {p : Plain} {g : Registry} {m : Mapping (Reg Encoder)}, p[r]? = some g →
    registerAll rs g.encoders = some m → (p.run (encoderCalls r rs))[r]? = some { g with encoders := m } := by
  intro rs
  induction rs with
  | nil => intro p g m hg hm; injection hm with hm; subst hm; exact hg
  | cons x rs ih =>
    intro p g m hg hm
    obtain ⟨l, v, label⟩ := x
    rw [registerAll] at hm
    rcases hx : g.encoders.register l v label with ⟨y, a⟩
    rw [hx] at hm
    cases y with
    | error e => cases hm
    | ok u =>
      have := on_get hg (regEnc l v label)
      exact ih (g := regEnc l v label g) this (by unfold regEnc; rw [hx]; exact hm)

theorem decoderCalls_run (r : Nat) : ∀ (rs : List (LookupArg × Reg Decoder × Option (List Char)))
    {p : Plain} {g : Registry} {m : Mapping (Reg Decoder)}, p[r]? = some g →
    registerAll rs g.decoders = some m → (p.run (decoderCalls r rs))[r]? = some { g with decoders := m } := by
  intro rs
  induction rs with
  | nil => intro p g m hg hm; injection hm with hm; subst hm; exact hg
  | cons x rs ih =>
    intro p g m hg hm
    obtain ⟨l, v, label⟩ := x
    rw [registerAll] at hm
    rcases hx : g.decoders.register l v label with ⟨y, a⟩
    rw [hx] at hm
    cases y with
    | error e => cases hm
    | ok u =>
      have := on_get hg (regDec l v label)
      exact ih (g := regDec l v label g) this (by unfold regDec; rw [hx]; exact hm)

/-- Order does not matter: if a list of registrations is accepted in one order, it is accepted in any
other, and then every lookup, also a nested one, comes out the same.  Matchers may raise, if those
that raise on a type string raise the same exception (`C27_matchers`). -/
theorem C27_encoder_order [Ext] (h : History) {r : Nat} {g : Registry}
    (hg : (Plain.run [] h)[r]? = some g)
    {rs rs' : List (LookupArg × Reg Encoder × Option (List Char))} (hp : rs.Perm rs')
    {m : Mapping (Reg Encoder)} (hall : registerAll rs g.encoders = some m) (hone : OneException m) :
    (∃ m', registerAll rs' g.encoders = some m') ∧
    ∀ fuel s, let x := ((World.empty.run (h ++ encoderCalls r rs)).getEncoder fuel r s).1
      let y := ((World.empty.run (h ++ encoderCalls r rs')).getEncoder fuel r s).1
      x ≠ .error .recursionError → y ≠ .error .recursionError → y = x := by
  obtain ⟨m', h1, h2⟩ := registerAll_order hp hall
  refine ⟨⟨m', h1⟩, fun fuel s hx hy => ?_⟩
  have hg1 := encoderCalls_run r rs hg hall
  have hg2 := encoderCalls_run r rs' hg h1
  rw [← plain_run_append] at hg1 hg2
  have e1 := (C28_getEncoder _ hg1 fuel s).1 hx
  have e2 := (C28_getEncoder _ hg2 fuel s).1 hy
  have he : (fun n => getEncoderFuel m n s) = fun n => getEncoderFuel m' n s :=
    funext fun n => encoderFuel_congr (fun s => getRegistration_congr (find_perm h2.1 hone s)) n s
  simp only at e1 e2
  rw [he] at e1
  exact comesTo_unique e2 e1

theorem C27_decoder_order [Ext] (h : History) {r : Nat} {g : Registry}
    (hg : (Plain.run [] h)[r]? = some g)
    {rs rs' : List (LookupArg × Reg Decoder × Option (List Char))} (hp : rs.Perm rs')
    {m : Mapping (Reg Decoder)} (hall : registerAll rs g.decoders = some m) (hone : OneException m) :
    (∃ m', registerAll rs' g.decoders = some m') ∧
    ∀ fuel s a, let x := ((World.empty.run (h ++ decoderCalls r rs)).getDecoder fuel r s a).1
      let y := ((World.empty.run (h ++ decoderCalls r rs')).getDecoder fuel r s a).1
      x ≠ .error .recursionError → y ≠ .error .recursionError → y = x := by
  obtain ⟨m', h1, h2⟩ := registerAll_order hp hall
  refine ⟨⟨m', h1⟩, fun fuel s a hx hy => ?_⟩
  have hg1 := decoderCalls_run r rs hg hall
  have hg2 := decoderCalls_run r rs' hg h1
  rw [← plain_run_append] at hg1 hg2
  have e1 := (C28_getDecoder _ hg1 fuel s a).1 hx
  have e2 := (C28_getDecoder _ hg2 fuel s a).1 hy
  have he : (fun n => getDecoderFuel m n s a.value) = fun n => getDecoderFuel m' n s a.value :=
    funext fun n => decoderFuel_congr (fun s => getRegistration_congr (find_perm h2.1 hone s)) n s _
  simp only at e1 e2
  rw [he] at e1
  exact comesTo_unique e2 e1

/-- The matchers of eth_abi itself are such. -/
theorem C27_matchers [Ext] {V : Type} (m : Mapping V)
    (h : ∀ q ∈ m.values, ∀ k f, q.1.kind ≠ .user k f) : OneException m := oneException_of m h

example : letI := Ex.ext
    ∃ g m, (Plain.run [] [(9, .new)])[0]? = some g ∧
    registerAll [(.str t!"foo" 0, .obj ⟨none, none, fun _ => .ok [1]⟩, none),
      (.pred ⟨1, .baseEquals t!"bar" none⟩, .obj ⟨none, none, fun _ => .ok [2]⟩, some t!"b")] g.encoders = some m ∧
    OneException m ∧ OnlyMatch m t!"bar32" (.obj ⟨none, none, fun _ => .ok [2]⟩) := by
  let := Ex.ext
  refine ⟨_, _, rfl, rfl, oneException_of _ ?_, [_], _, [], rfl, by decide +kernel, ?_⟩
  · intro q hq k f
    change q ∈ [_, _] at hq
    rcases List.mem_cons.1 hq with rfl | hq
    · intro h; cases h
    · rw [List.mem_singleton.1 hq]; intro h; cases h
  · intro q hq
    change q ∈ [_] at hq
    rw [List.mem_singleton.1 hq]
    decide +kernel

/-- Two registrations match `uint8`: the lookup refuses to choose. -/
example : letI := Ex.ext
    ∃ g, (Plain.run [] Ex.twice)[0]? = some g ∧ AllAnswer g.encoders t!"uint8" ∧ TwoMatch g.encoders t!"uint8" ∧
    ((World.empty.run Ex.twice).encode 9 0 [t!"uint8"] (.list [.int 7])).1 = .error .multipleEntriesFound := by
  let := Ex.ext
  refine ⟨_, rfl, ?_, ⟨[], _, [], _, [], rfl, rfl, rfl⟩, by decide +kernel⟩
  intro q hq
  change q ∈ [_, _] at hq
  rcases List.mem_cons.1 hq with rfl | hq
  · exact ⟨true, rfl⟩
  · rw [List.mem_singleton.1 hq]; exact ⟨true, rfl⟩

/-! ## C30: `unregister` undoes `register`

That the registrations are those of before means, by C28, that every later call behaves as if neither
call had been made. -/

/-- Unregistering by the label, or by the type string if one was given in place of a matcher. -/
theorem C30_label [Ext] (h : History) {r : Nat} {g : Registry}
    (hg : (Plain.run [] h)[r]? = some g) (l : LookupArg) (e : Reg Encoder) (d : Reg Decoder)
    (label : Option (List Char)) {used : List Char} (hu : LabelUsed l label used) (n n' i : Nat) :
    (((World.empty.run h).registerEncoder r l e label).1 = .ok () →
      ((World.empty.run (h ++ [(n, .registerEncoder r l e label)])).unregisterEncoder r (.str used i)).1 = .ok () ∧
      Plain.run [] (h ++ [(n, .registerEncoder r l e label)] ++ [(n', .unregisterEncoder r (.str used i))]) =
        Plain.run [] h) ∧
    (((World.empty.run h).registerDecoder r l d label).1 = .ok () →
      ((World.empty.run (h ++ [(n, .registerDecoder r l d label)])).unregisterDecoder r (.str used i)).1 = .ok () ∧
      Plain.run [] (h ++ [(n, .registerDecoder r l d label)] ++ [(n', .unregisterDecoder r (.str used i))]) =
        Plain.run [] h) ∧
    (((World.empty.run h).register r l e d label).1 = .ok () →
      ((World.empty.run (h ++ [(n, .register r l e d label)])).unregister r (.str used i)).1 = .ok () ∧
      Plain.run [] (h ++ [(n, .register r l e d label)] ++ [(n', .unregister r (.str used i))]) =
        Plain.run [] h) := by
  have hh := has_of hg
  refine ⟨fun ho => ?_, fun ho => ?_, fun ho => ?_⟩
  · rw [registerEncoder_out hh] at ho
    have hu := unregister_label hu ho i
    have hg1 : (Plain.run [] (h ++ [(n, .registerEncoder r l e label)]))[r]? = some (regEnc l e label g) := by
      rw [plain_snoc]; exact on_get hg _
    refine ⟨?_, ?_⟩
    · rw [unregisterEncoder_out (has_of hg1)]
      unfold regEnc
      rw [hu]
    · rw [plain_snoc, plain_snoc]
      show ((Plain.run [] h).on r (regEnc l e label)).on r (unregEnc (.str used i)) = _
      rw [on_on]
      refine on_same hg _ ?_
      unfold unregEnc regEnc
      rw [hu]
  · rw [registerDecoder_out hh] at ho
    have hu := unregister_label hu ho i
    have hg1 : (Plain.run [] (h ++ [(n, .registerDecoder r l d label)]))[r]? = some (regDec l d label g) := by
      rw [plain_snoc]; exact on_get hg _
    refine ⟨?_, ?_⟩
    · rw [unregisterDecoder_out (has_of hg1)]
      unfold regDec
      rw [hu]
    · rw [plain_snoc, plain_snoc]
      show ((Plain.run [] h).on r (regDec l d label)).on r (unregDec (.str used i)) = _
      rw [on_on]
      refine on_same hg _ ?_
      unfold unregDec regDec
      rw [hu]
  · rw [register_out hh] at ho
    obtain ⟨u, ho1, ho2⟩ := bind_eq_ok.1 ho
    have hu1 := unregister_label hu ho1 i
    have hu2 := unregister_label hu ho2 i
    have hb : bothReg l e d label g = regDec l d label (regEnc l e label g) := by
      unfold bothReg; rw [ho1]; rfl
    have hg1 : (Plain.run [] (h ++ [(n, .register r l e d label)]))[r]? =
        some (regDec l d label (regEnc l e label g)) := by
      rw [plain_snoc, ← hb]; exact on_get hg _
    refine ⟨?_, ?_⟩
    · rw [unregister_out (has_of hg1)]
      unfold regDec regEnc
      simp only [hu1, hu2, ok_bind]
    · rw [plain_snoc, plain_snoc]
      show ((Plain.run [] h).on r (bothReg l e d label)).on r (bothUnreg (.str used i)) = _
      rw [on_on]
      refine on_same hg _ ?_
      rw [hb]
      unfold bothUnreg unregDec unregEnc regDec regEnc
      simp only [hu1, hu2, returned, if_true]

/-- Unregistering by an equal matcher: every lookup comes out as before the registration.  The
registrations are exactly as before if the matcher is the object that was registered, or no label was
given, and no label already belongs to that object.  Missing: in the other case the label stays in
use (`C30_matcher_false`). -/
theorem C30_matcher_partial [Ext] (h : History) {r : Nat} {g : Registry}
    (hg : (Plain.run [] h)[r]? = some g) (p q : Pred) (hq : q.pyEq p = true) (e : Reg Encoder) (d : Reg Decoder)
    (label : Option (List Char)) (n n' : Nat) :
    (((World.empty.run h).registerEncoder r (.pred p) e label).1 = .ok () →
      let h' := h ++ [(n, .registerEncoder r (.pred p) e label)]
      ((World.empty.run h').unregisterEncoder r (.pred q)).1 = .ok () ∧
      (∃ g', (Plain.run [] (h' ++ [(n', .unregisterEncoder r (.pred q))]))[r]? = some g' ∧ SameLookups g' g) ∧
      ((∀ x ∈ g.encoders.labels, x.2.ident ≠ q.ident) → q.ident = p.ident ∨ label = none →
        Plain.run [] (h' ++ [(n', .unregisterEncoder r (.pred q))]) = Plain.run [] h)) ∧
    (((World.empty.run h).registerDecoder r (.pred p) d label).1 = .ok () →
      let h' := h ++ [(n, .registerDecoder r (.pred p) d label)]
      ((World.empty.run h').unregisterDecoder r (.pred q)).1 = .ok () ∧
      (∃ g', (Plain.run [] (h' ++ [(n', .unregisterDecoder r (.pred q))]))[r]? = some g' ∧ SameLookups g' g) ∧
      ((∀ x ∈ g.decoders.labels, x.2.ident ≠ q.ident) → q.ident = p.ident ∨ label = none →
        Plain.run [] (h' ++ [(n', .unregisterDecoder r (.pred q))]) = Plain.run [] h)) := by
  have hh := has_of hg
  refine ⟨fun ho => ?_, fun ho => ?_⟩
  · rw [registerEncoder_out hh] at ho
    obtain ⟨h1, h2, h3⟩ := removeByEquality_add (m := g.encoders) ho hq
    have hg1 : (Plain.run [] (h ++ [(n, .registerEncoder r (.pred p) e label)]))[r]? =
        some (regEnc (.pred p) e label g) := by
      rw [plain_snoc]; exact on_get hg _
    refine ⟨?_, ?_, fun hi hl => ?_⟩
    · rw [unregisterEncoder_out (has_of hg1)]
      exact h1
    · refine ⟨unregEnc (.pred q) (regEnc (.pred p) e label g), ?_, sameLookups_of h2 rfl⟩
      rw [plain_snoc]
      exact on_get hg1 _
    · rw [plain_snoc, plain_snoc]
      show ((Plain.run [] h).on r (regEnc (.pred p) e label)).on r (unregEnc (.pred q)) = _
      rw [on_on]
      refine on_same hg _ ?_
      have : ((g.encoders.register (.pred p) e label).2.unregister (.pred q)).2 = g.encoders := h3 hi hl
      unfold unregEnc regEnc
      simp only [this]
  · rw [registerDecoder_out hh] at ho
    obtain ⟨h1, h2, h3⟩ := removeByEquality_add (m := g.decoders) ho hq
    have hg1 : (Plain.run [] (h ++ [(n, .registerDecoder r (.pred p) d label)]))[r]? =
        some (regDec (.pred p) d label g) := by
      rw [plain_snoc]; exact on_get hg _
    refine ⟨?_, ?_, fun hi hl => ?_⟩
    · rw [unregisterDecoder_out (has_of hg1)]
      exact h1
    · refine ⟨unregDec (.pred q) (regDec (.pred p) d label g), ?_, sameLookups_of rfl h2⟩
      rw [plain_snoc]
      exact on_get hg1 _
    · rw [plain_snoc, plain_snoc]
      show ((Plain.run [] h).on r (regDec (.pred p) d label)).on r (unregDec (.pred q)) = _
      rw [on_on]
      refine on_same hg _ ?_
      have : ((g.decoders.register (.pred p) d label).2.unregister (.pred q)).2 = g.decoders := h3 hi hl
      unfold unregDec regDec
      simp only [this]

/-- `register_encoder(Equals("foo"), e, label="l")`, then `unregister_encoder(Equals("foo"))` with
another, equal matcher: the label `l` cannot be used again. -/
theorem C30_matcher_false : ¬ ∀ [Ext] (h : History) (r n n' : Nat) (p q : Pred) (e : Reg Encoder)
    (label : Option (List Char)), q.pyEq p = true →
    ((World.empty.run h).registerEncoder r (.pred p) e label).1 = .ok () →
    ((World.empty.run (h ++ [(n, .registerEncoder r (.pred p) e label)] ++
      [(n', .unregisterEncoder r (.pred q))])).registerEncoder r (.pred p) e label).1 = .ok () := by
  intro hall
  have := @hall Ex.ext [(9, .new)] 0 9 9 ⟨0, .equals t!"foo"⟩ ⟨1, .equals t!"foo"⟩
    (.obj ⟨none, none, fun _ => .ok [1]⟩) (some t!"l") rfl
  revert this
  let := Ex.ext
  decide +kernel

example : letI := Ex.ext
    LabelUsed (.pred ⟨7, .equals t!"foo"⟩) (some t!"l") t!"l" ∧ LabelUsed (.str t!"foo" 3) none t!"foo" ∧
    (World.imported.register 0 (.pred ⟨7, .equals t!"foo"⟩) (.obj ⟨none, none, fun _ => .ok [1]⟩)
      (.obj (byteStringDecoder (.shared 0))) (some t!"l")).1 = .ok () ∧
    (World.imported.register 0 (.str t!"uint256" 0) (.obj ⟨none, none, fun _ => .ok [1]⟩)
      (.obj (byteStringDecoder (.shared 0))) none).1 = .ok () := by
  let := Ex.ext
  exact ⟨Or.inl ⟨_, rfl, rfl⟩, Or.inr ⟨3, rfl⟩, by decide +kernel, by decide +kernel⟩

/-! ## C32: a refused registration changes nothing -/

/-- One-sided calls.  A refused `register_encoder` or `register_decoder` leaves the registrations as
they were; a refused `unregister_encoder` or `unregister_decoder` leaves every lookup as it was. -/
theorem C32_one_side [Ext] (h : History) {r : Nat} {g : Registry}
    (hg : (Plain.run [] h)[r]? = some g) (l : LookupArg) (e : Reg Encoder) (d : Reg Decoder)
    (label : Option (List Char)) (n : Nat) (x : Exc) :
    (((World.empty.run h).registerEncoder r l e label).1 = .error x →
      Plain.run [] (h ++ [(n, .registerEncoder r l e label)]) = Plain.run [] h) ∧
    (((World.empty.run h).registerDecoder r l d label).1 = .error x →
      Plain.run [] (h ++ [(n, .registerDecoder r l d label)]) = Plain.run [] h) ∧
    (((World.empty.run h).unregisterEncoder r l).1 = .error x →
      ∃ g', (Plain.run [] (h ++ [(n, .unregisterEncoder r l)]))[r]? = some g' ∧ SameLookups g' g) ∧
    (((World.empty.run h).unregisterDecoder r l).1 = .error x →
      ∃ g', (Plain.run [] (h ++ [(n, .unregisterDecoder r l)]))[r]? = some g' ∧ SameLookups g' g) := by
  have hh := has_of hg
  refine ⟨fun ho => ?_, fun ho => ?_, fun ho => ?_, fun ho => ?_⟩
  · rw [registerEncoder_out hh] at ho
    rw [plain_snoc]
    exact on_same hg _ (by unfold regEnc; rw [register_err ho])
  · rw [registerDecoder_out hh] at ho
    rw [plain_snoc]
    exact on_same hg _ (by unfold regDec; rw [register_err ho])
  · rw [unregisterEncoder_out hh] at ho
    exact ⟨unregEnc l g, by rw [plain_snoc]; exact on_get hg _, sameLookups_of (unregister_err ho) rfl⟩
  · rw [unregisterDecoder_out hh] at ho
    exact ⟨unregDec l g, by rw [plain_snoc]; exact on_get hg _, sameLookups_of rfl (unregister_err ho)⟩

/-- A refused `register` or `unregister(label)` changes nothing in a registry whose encoders and
decoders have always been registered and unregistered together, under labels.  Missing: other
registries (`C32_register_false`, `C32_unregister_false`). -/
theorem C32_partial [Ext] (h h' : History) {r : Nat} {g : Registry}
    (hg : (Plain.run [] h)[r]? = some g) (hm : Mirror g) (hp : Paired r h') (l : LookupArg)
    (e : Reg Encoder) (d : Reg Decoder) (label : Option (List Char)) (s : List Char) (n i : Nat) (x : Exc) :
    (((World.empty.run (h ++ h')).register r l e d label).1 = .error x →
      Plain.run [] (h ++ h' ++ [(n, .register r l e d label)]) = Plain.run [] (h ++ h')) ∧
    (((World.empty.run (h ++ h')).unregister r (.str s i)).1 = .error x →
      Plain.run [] (h ++ h' ++ [(n, .unregister r (.str s i))]) = Plain.run [] (h ++ h')) := by
  obtain ⟨g', hg', hm'⟩ := paired_mirror h' hg hm hp
  rw [← plain_run_append] at hg'
  have hh := has_of hg'
  refine ⟨fun ho => ?_, fun ho => ?_⟩
  · obtain ⟨_, h2, h3⟩ := mirror_register hm' l e d label
    rw [register_out hh, h2] at ho
    rw [plain_snoc]
    exact on_same hg' _ (h3 x ho)
  · obtain ⟨_, h2, h3⟩ := mirror_unregister hm' s i
    rw [unregister_out hh, h2] at ho
    rw [plain_snoc]
    exact on_same hg' _ (h3 x ho)

/-- The default registry is such a registry, and so is a new one. -/
theorem C32_default [Ext] : Mirror defaultRegistry ∧ Mirror ⟨Mapping.empty, Mapping.empty⟩ :=
  ⟨mirror_default, ⟨rfl, rfl, List.Pairwise.nil, List.Sublist.refl _⟩⟩

/-- A decoder is registered for `foo`; `register("foo", ...)` is then refused, but the encoder stays. -/
theorem C32_register_false : ¬ ∀ [Ext] (h : History) (r n fuel : Nat) (l : LookupArg) (e : Reg Encoder)
    (d : Reg Decoder) (label : Option (List Char)) (x : Exc) (types : List TypeStr) (args : PyVal),
    ((World.empty.run h).register r l e d label).1 = .error x →
    ((World.empty.run (h ++ [(n, .register r l e d label)])).encode fuel r types args).1 =
      ((World.empty.run h).encode fuel r types args).1 := by
  intro hall
  have := @hall Ex.ext Ex.object 0 9 9 (.str t!"foo" 0) (.obj ⟨none, none, fun _ => .ok [1]⟩)
    (.obj (byteStringDecoder (.shared 1))) none .valueError [t!"foo"] (.list [.int 7])
  revert this
  let := Ex.ext
  decide +kernel

/-- An encoder is registered for `foo`; `unregister("foo")` is refused, but the encoder is gone. -/
theorem C32_unregister_false : ¬ ∀ [Ext] (h : History) (r n fuel : Nat) (l : LookupArg) (x : Exc)
    (types : List TypeStr) (args : PyVal),
    ((World.empty.run h).unregister r l).1 = .error x →
    ((World.empty.run (h ++ [(n, .unregister r l)])).encode fuel r types args).1 =
      ((World.empty.run h).encode fuel r types args).1 := by
  intro hall
  have := @hall Ex.ext Ex.copied 0 9 9 (.str t!"foo" 0) .keyError [t!"foo"] (.list [.int 7])
  revert this
  let := Ex.ext
  decide +kernel

example : letI := Ex.ext
    Paired 0 [(9, .register 0 (.str t!"foo" 7) (.obj ⟨none, none, fun _ => .ok [1]⟩)
        (.obj (byteStringDecoder (.shared 0))) none), (9, .unregister 0 (.str t!"uint" 7)),
        (9, .registerDecoder 1 (.str t!"foo" 7) (.obj (byteStringDecoder (.shared 0))) none)] ∧
    (World.imported.register 0 (.pred ⟨7, .baseEquals t!"uint" none⟩) (.obj ⟨none, none, fun _ => .ok [1]⟩)
      (.obj (byteStringDecoder (.shared 0))) none).1 = .error .valueError ∧
    (World.imported.unregister 0 (.str t!"foo" 0)).1 = .error .keyError := by
  let := Ex.ext
  refine ⟨?_, by decide +kernel, by decide +kernel⟩
  intro c hc
  simp only [List.mem_cons, List.not_mem_nil, or_false] at hc
  rcases hc with rfl | rfl | rfl
  · trivial
  · trivial
  · decide

end EthAbi
