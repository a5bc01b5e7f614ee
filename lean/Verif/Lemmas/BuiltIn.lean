import Verif.Lemmas.Built
import Verif.Lemmas.Shadow
import Verif.Lemmas.Mapping
import Verif.Lemmas.CoderAttributes

/-! # The coders of the default registry as coders that belong together -/
namespace EthAbi
open Spec
variable [Ext]

theorem denote_onGridAll {ts : List Ty} (ih : ∀ t ∈ ts, ∀ v x, denote t v = some x → OnGrid t v) :
    ∀ {vs : List PyVal} {xs : List Val}, denoteAll ts vs = some xs → OnGridAll ts vs := by
  induction ts with
  | nil => intro vs xs _; simp [OnGridAll]
  | cons t ts ih2 =>
    intro vs xs h
    cases vs with
    | nil => simp [OnGridAll]
    | cons v vs =>
      obtain ⟨y, ys, h1, h2, _⟩ := denoteAll_cons.1 h
      exact ⟨ih t (by simp) v y h1, ih2 (fun t ht => ih t (by simp [ht])) h2⟩

omit [Ext] in
theorem forall2_mem {α β : Type} {R : α → β → Prop} {as : List α} {bs : List β}
    (h : List.Forall₂ R as bs) {a : α} (ha : a ∈ as) : ∃ b, R a b := by
  induction h with
  | nil => cases ha
  | cons h1 _ ih =>
    rcases List.mem_cons.1 ha with rfl | ha
    · exact ⟨_, h1⟩
    · exact ih ha

theorem denote_onGrid (t : Ty) : ∀ v x, denote t v = some x → OnGrid t v := by
  refine Spec.Ty.ind (P := fun t => ∀ v x, denote t v = some x → OnGrid t v)
    ?_ ?_ ?_ ?_ ?_ ?_ ?_ ?_ ?_ ?_ ?_ ?_ t
  · intros; simp [OnGrid]
  · intros; simp [OnGrid]
  · intros; simp [OnGrid]
  · intros; simp [OnGrid]
  · intro m n v x h
    simp only [denote, Option.bind_eq_bind, Option.bind_eq_some_iff] at h
    obtain ⟨y, h1, k, h2, _⟩ := h
    intro z hz
    rw [h1] at hz
    cases hz
    rw [h2]; rfl
  · intro m n v x h
    simp only [denote, Option.bind_eq_bind, Option.bind_eq_some_iff] at h
    obtain ⟨y, h1, k, h2, _⟩ := h
    intro z hz
    rw [h1] at hz
    cases hz
    rw [h2]; rfl
  · intros; simp [OnGrid]
  · intros; simp [OnGrid]
  · intros; simp [OnGrid]
  · intro k t ih v x h
    obtain ⟨vs, xs, h1, h2, _⟩ := denote_sized.1 h
    intro us hus u hu
    rw [h1] at hus
    cases hus
    obtain ⟨y, hy⟩ := forall2_mem h2 hu
    exact ih u y hy
  · intro t ih v x h
    obtain ⟨vs, xs, h1, h2, _⟩ := denote_dyn.1 h
    intro us hus u hu
    rw [h1] at hus
    cases hus
    obtain ⟨y, hy⟩ := forall2_mem h2 hu
    exact ih u y hy
  · intro ts ih v x h
    obtain ⟨vs, xs, h1, h2, _⟩ := denote_tuple.1 h
    intro us hus
    rw [h1] at hus
    cases hus
    exact denote_onGridAll ih h2

omit [Ext] in
theorem run_setStrict (t : Ty) (fl : Flags) (strict : Bool) (st : Stream) :
    (decOf t).run fl strict st = ((decOf t).setStrict strict).call fl st := by
  cases t <;> first | rfl | (simp only [Decoder.setStrict]; split <;> rfl)

theorem readsBack_builtin {t : Ty} (hv : t.Valid) :
    ReadsBack (encOf false t) (decOf t) (fun v v' => ∃ x, denote t v = some x ∧ v' = toPy t x) := by
  have he := encOf_good false t hv
  have hd := decOf_good t
  have hdyn : (decOf t).dyn = t.dynamic := by simp [Decoder.dyn, hd.isDyn]
  have hcall : ∀ v x b, denote t v = some x → (encOf false t).call v = .ok b → b = enc t x := by
    intro v x b hx hb
    obtain ⟨y, h1, h2⟩ := call_spec false t hv v b hb (denote_onGrid t v x hx)
    rw [hx] at h1
    cases h1
    simpa [encBy] using h2
  refine ⟨?_, hd.notHT, ?_, ?_⟩
  · rw [encoder_counts, decoder_counts, hdyn, Encoder.dyn, he.isDyn]; rfl
  · rintro v v' b ⟨x, hx, rfl⟩ hb
    rw [hcall v x b hx hb]
    obtain ⟨_, h2, h3⟩ := enc_length t hv x (denote_of t v x hx)
    refine ⟨by omega, fun hdy => ⟨h2, ?_⟩⟩
    rw [decoder_counts, hdyn] at hdy
    rw [h3 hdy, hd.size]
    have h32 := h3 hdy
    cases t with
    | sized k u =>
      have := size_pos u hv.2
      simp only [arrayDim, Ty.size]
      rw [Nat.mul_comm]
      exact Nat.mul_le_mul_left k this
    | _ => simp only [arrayDim]; omega
  · rintro v v' b ⟨x, hx, rfl⟩ hb fl strict st hl hat htot
    have hb' := hcall v x b hx hb
    subst hb'
    have hp : st.pos ≤ ssizeMax := by
      have h2 := (enc_length t hv x (denote_of t v x hx)).2.1
      have := at_length hat (by omega)
      omega
    have hr := (decOf_strict t strict).run fl st hl hp (by rwa [decoder_counts, hdyn] at htot)
    rw [(posDec_iff t hv strict st.data hl st.pos x).2
      (reads_enc codeHead_ok t hv strict st.data hl st.pos x (denote_of t v x hx) hat)] at hr
    obtain ⟨st', h1, h2, h3, h4, h5, h6⟩ := hr
    rw [← run_setStrict] at h1
    refine ⟨st'.pos, ?_, h5, fun hdy => ?_⟩
    · rw [h1]
      obtain ⟨d', p', f', t'⟩ := st'
      simp only at h2 h3 h4
      subst h2 h3 h4
      rfl
    · rw [decoder_counts, hdyn] at hdy
      rw [h6 hdy, (enc_length t hv x (denote_of t v x hx)).2.2 hdy]

/-! ## Registries made from the default one -/

omit [Ext] in
theorem mapping_mk {V : Type} (m : Mapping V) : m = ⟨m.values, m.labels⟩ := rfl

theorem onlyMatch_extend {V : Type} {m m0 : Mapping V} {s : TypeStr} {v : V} {extra : List (Pred × V)}
    (h : OnlyMatch m0 s v) (hm : m.values = m0.values ++ extra)
    (hx : ∀ q ∈ extra, q.1.matches s = .ok false) : OnlyMatch m s v := by
  obtain ⟨a, p, b, h1, h2, h3⟩ := h
  refine ⟨a, p, b ++ extra, by rw [hm, h1]; simp, h2, fun q hq => ?_⟩
  rw [← List.append_assoc, List.mem_append] at hq
  rcases hq with hq | hq
  · exact h3 q hq
  · exact hx q hq

/-- The registration of a basic type makes no lookups. -/
theorem pick_ret {C : Type} (k : Kit C) {b : List Char} {sub : Sub} {v : Reg C}
    (h : (match k.regs with
      | [u, i, a, bo, uf, f, bm, by_, fn, s, arr, tup] =>
        pick u i a bo uf f bm by_ fn s arr tup (.basic b sub [])
      | _ => none) = some v) : ∃ plan, v = .cls plan ∧ ∀ s, ∃ r, plan s = .ret r := by
  simp only [Kit.regs, pick] at h
  have key : ∀ (base : List Char) (mk : Sub → PyM C), some (Reg.cls (basicPlan base mk)) = some v →
      ∃ plan, v = .cls plan ∧ ∀ s, ∃ r, plan s = .ret r := by
    intro base mk h
    cases h
    exact ⟨_, rfl, fun s => ⟨_, rfl⟩⟩
  split at h
  · exact key _ _ h
  split at h
  · exact key _ _ h
  split at h
  · exact key _ _ h
  split at h
  · exact key _ _ h
  split at h
  · exact key _ _ h
  split at h
  · exact key _ _ h
  split at h
  · split at h <;> exact key _ _ h
  split at h
  · exact key _ _ h
  split at h
  · exact key _ _ h
  · cases h

theorem served_of_parse {C : Type} (k : Kit C) (n : Nat) {s : TypeStr} {a : ABIType} (h : parse s = .ok a)
    {v : Reg C} (hv : (match k.regs with
      | [u, i, ad, bo, uf, f, bm, by_, fn, st, arr, tup] =>
        pick u i ad bo uf f bm by_ fn st arr tup a
      | _ => none) = some v) : OnlyMatch (mappingOf n defaultPreds k.regs) s v := by
  refine (find_iff _ _ _).1 ((getRegistration_ok _ _ _).1 ?_)
  rw [Kit.regs, getRegistration_parsed n _ _ _ _ _ _ _ _ _ _ _ _ h]
  rw [Kit.regs] at hv
  simp only at hv
  rw [hv]

theorem served_array {C : Type} (k : Kit C) (n : Nat) {s : TypeStr} {a : ABIType} (h : parse s = .ok a)
    (ha : a.isArray = true) : OnlyMatch (mappingOf n defaultPreds k.regs) s (.cls (arrayPlan k.array)) := by
  refine served_of_parse k n h ?_
  rcases a with ⟨b, sub, (_ | ⟨d, ds⟩)⟩ | ⟨cs, (_ | ⟨d, ds⟩)⟩
  · cases ha
  · rfl
  · cases ha
  · rfl

theorem served_tuple {C : Type} (k : Kit C) (n : Nat) {s : TypeStr} {cs : List ABIType}
    (h : parse s = .ok (.tuple cs [])) :
    OnlyMatch (mappingOf n defaultPreds k.regs) s (.cls (tuplePlan k.tuple)) :=
  served_of_parse k n h rfl

theorem default_array {g : Registry} {s : TypeStr} (h : DefaultFor g s) {a : ABIType} (hp : parse s = .ok a)
    (ha : a.isArray = true) : ServedAsArray g s := by
  obtain ⟨xe, xd, h1, h2, h3, h4⟩ := h
  exact ⟨onlyMatch_extend (served_array (encKit false) 0 hp ha) h1 h3,
    onlyMatch_extend (served_array decKit 0 hp ha) h2 h4⟩

theorem default_tuple {g : Registry} {s : TypeStr} (h : DefaultFor g s) {cs : List ABIType}
    (hp : parse s = .ok (.tuple cs [])) : ServedAsTuple g s := by
  obtain ⟨xe, xd, h1, h2, h3, h4⟩ := h
  exact ⟨onlyMatch_extend (served_tuple (encKit false) 0 hp) h1 h3,
    onlyMatch_extend (served_tuple decKit 0 hp) h2 h4⟩

theorem default_basic {g : Registry} {s : TypeStr} (h : DefaultFor g s) {b : List Char} {sub : Sub}
    (hp : parse s = .ok (.basic b sub [])) {t : Ty} (ht : Supported s t) :
    Serves g s (encOf false t) (decOf t) := by
  obtain ⟨xe, xd, h1, h2, h3, h4⟩ := h
  constructor
  · refine ⟨1, fun f hf => ?_⟩
    obtain ⟨f, rfl⟩ : ∃ f', f = f' + 1 := ⟨f - 1, by omega⟩
    have hd : getEncoderFuel defaultRegistry.encoders (s.length + 1) s = .ok (encOf false t) :=
      getEncoder_supported false ht
    rw [getEncoderFuel] at hd
    cases hr : defaultRegistry.encoders.getRegistration s with
    | error e => rw [hr] at hd; cases hd
    | ok v =>
      have hr' := hr
      have hreg : defaultRegistry.encoders = mappingOf 0 defaultPreds (encKit false).regs := rfl
      rw [hreg, Kit.regs, getRegistration_parsed 0 _ _ _ _ _ _ _ _ _ _ _ _ hp] at hr'
      obtain ⟨plan, rfl, hplan⟩ := pick_ret (encKit false) (b := b) (sub := sub) (v := v) (by
        rw [Kit.regs]
        simp only
        split at hr'
        · next hv => injection hr' with hr'; subst hr'; exact hv
        · cases hr')
      have hm := onlyMatch_extend ((find_iff _ _ _).1 ((getRegistration_ok _ _ _).1 hr)) h1 h3
      show getEncoderFuel g.encoders (f + 1) s = _
      rw [serves_exec_enc hm]
      rw [hr] at hd
      obtain ⟨r, hpr⟩ := hplan s
      simp only [hpr, Plan.exec] at hd ⊢
      exact hd
  · refine ⟨1, fun f hf => ?_⟩
    obtain ⟨f, rfl⟩ : ∃ f', f = f' + 1 := ⟨f - 1, by omega⟩
    have hd : getDecoderFuel defaultRegistry.decoders (s.length + 1) s true = .ok ((decOf t).setStrict true) :=
      getDecoder_supported ht true
    rw [setStrict_true, getDecoderFuel] at hd
    cases hr : defaultRegistry.decoders.getRegistration s with
    | error e => rw [hr] at hd; cases hd
    | ok v =>
      have hr' := hr
      have hreg : defaultRegistry.decoders = mappingOf 0 defaultPreds decKit.regs := rfl
      rw [hreg, Kit.regs, getRegistration_parsed 0 _ _ _ _ _ _ _ _ _ _ _ _ hp] at hr'
      obtain ⟨plan, rfl, hplan⟩ := pick_ret decKit (b := b) (sub := sub) (v := v) (by
        rw [Kit.regs]
        simp only
        split at hr'
        · next hv => injection hr' with hr'; subst hr'; exact hv
        · cases hr')
      have hm := onlyMatch_extend ((find_iff _ _ _).1 ((getRegistration_ok _ _ _).1 hr)) h2 h4
      show getDecoderFuel g.decoders (f + 1) s true = _
      rw [serves_exec_dec hm]
      rw [hr] at hd
      obtain ⟨r, hpr⟩ := hplan s
      simp only [hpr, Plan.exec] at hd ⊢
      exact hd

end EthAbi
