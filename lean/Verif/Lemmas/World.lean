import Verif.Spec.Registry
import Verif.Lemmas.PyM

/-! # Registries with caches answer as registries without -/
namespace EthAbi
open Spec

/-- `RecursionError`. -/
abbrev RE {α : Type} : PyM α := .error .recursionError

/-! ## The depth of lookups -/

theorem exec_mono {C : Type} {look look' : TypeStr → PyM C}
    (h : ∀ s, look s ≠ RE → look' s = look s) (p : Plan C) :
    p.exec look ≠ RE → p.exec look' = p.exec look := by
  induction p with
  | ret r => intro _; rfl
  | ask s k ih =>
    intro hne
    simp only [Plan.exec] at hne ⊢
    rcases ok_or_error (look s) with ⟨c, hc⟩ | ⟨e, he⟩
    · rw [h s (by rw [hc]; simp), hc]
      rw [hc] at hne
      exact ih c hne
    · rw [he] at hne
      rw [h s (by rw [he]; exact hne), he]

theorem encoderFuel_succ [Ext] (m : Mapping (Reg Encoder)) (f : Nat) : ∀ s,
    getEncoderFuel m f s ≠ RE → getEncoderFuel m (f + 1) s = getEncoderFuel m f s := by
  induction f with
  | zero => intro s h; exact absurd rfl h
  | succ f ih =>
    intro s h
    unfold getEncoderFuel at h ⊢
    cases hm : m.getRegistration s with
    | error e => rfl
    | ok g =>
      cases g with
      | obj e => rfl
      | cls plan =>
        rw [hm] at h
        exact exec_mono ih (plan s) h

theorem encoderFuel_mono [Ext] (m : Mapping (Reg Encoder)) {f f' : Nat} (hf : f ≤ f') {s : TypeStr}
    (h : getEncoderFuel m f s ≠ RE) : getEncoderFuel m f' s = getEncoderFuel m f s := by
  induction f' with
  | zero => rw [Nat.le_zero.1 hf]
  | succ f' ih =>
    rcases Nat.lt_or_ge f' f with h' | h'
    · rw [show f = f' + 1 by omega]
    · have := ih h'
      rw [encoderFuel_succ m f' s (by rw [this]; exact h), this]

theorem setStrict_bind {x : PyM Decoder} {b : Bool}
    (h : (do let d ← x; return d.setStrict b) ≠ RE) : x ≠ RE := by
  intro hx; rw [hx] at h; exact h rfl

theorem decoderFuel_succ [Ext] (m : Mapping (Reg Decoder)) (f : Nat) : ∀ s b,
    getDecoderFuel m f s b ≠ RE → getDecoderFuel m (f + 1) s b = getDecoderFuel m f s b := by
  induction f with
  | zero => intro s b h; exact absurd rfl h
  | succ f ih =>
    intro s b h
    unfold getDecoderFuel at h ⊢
    cases hm : m.getRegistration s with
    | error e => rfl
    | ok g =>
      cases g with
      | obj e => rfl
      | cls plan =>
        rw [hm] at h
        have := exec_mono (fun s => ih s true) (plan s) (setStrict_bind h)
        simp only [this]

theorem decoderFuel_mono [Ext] (m : Mapping (Reg Decoder)) {f f' : Nat} (hf : f ≤ f') {s : TypeStr}
    {b : Bool} (h : getDecoderFuel m f s b ≠ RE) :
    getDecoderFuel m f' s b = getDecoderFuel m f s b := by
  induction f' with
  | zero => rw [Nat.le_zero.1 hf]
  | succ f' ih =>
    rcases Nat.lt_or_ge f' f with h' | h'
    · rw [show f = f' + 1 by omega]
    · have := ih h'
      rw [decoderFuel_succ m f' s b (by rw [this]; exact h), this]

/-! ## A cached lookup against an uncached one -/

/-- What a lookup `look` with state should satisfy, `pure f` being the uncached one at depth `f`. -/
structure Agrees {C σ : Type} (Ok : σ → Prop) (pure : Nat → PyM C) (fuel : Nat) (x : PyM C × σ) :
    Prop where
  ok : Ok x.2
  sound : x.1 ≠ RE → ∃ f, pure f = x.1
  complete : pure fuel ≠ RE → x.1 = pure fuel

theorem execS_agrees {C σ : Type} {Ok : σ → Prop} {pure : Nat → TypeStr → PyM C} {fuel : Nat}
    (mono : ∀ f f' s, f ≤ f' → pure f s ≠ RE → pure f' s = pure f s)
    {look : TypeStr → σ → PyM C × σ}
    (hl : ∀ s st, Ok st → Agrees Ok (fun f => pure f s) fuel (look s st)) (p : Plan C) :
    ∀ st, Ok st → Agrees Ok (fun f => p.exec (pure f)) fuel (p.execS look st) := by
  induction p with
  | ret r => intro st h; exact ⟨h, fun _ => ⟨0, rfl⟩, fun _ => rfl⟩
  | ask s k ih =>
    intro st h
    obtain ⟨h1, h2, h3⟩ := hl s st h
    rcases hx : look s st with ⟨r, st'⟩
    rw [hx] at h1 h2 h3
    simp only at h1 h2 h3
    cases r with
    | error e =>
      simp only [Plan.execS, hx]
      refine ⟨h1, fun hne => ?_, fun hne => ?_⟩
      · obtain ⟨f, hf⟩ := h2 hne
        exact ⟨f, by simp only [Plan.exec, hf]⟩
      · have : pure fuel s ≠ RE := by
          intro h0
          exact hne (by simp only [Plan.exec, h0])
        simp only [Plan.exec, ← h3 this]
    | ok c =>
      obtain ⟨g1, g2, g3⟩ := ih c st' h1
      simp only [Plan.execS, hx]
      refine ⟨g1, fun hne => ?_, fun hne => ?_⟩
      · obtain ⟨f, hf⟩ := h2 (by simp)
        obtain ⟨f', hf'⟩ := g2 hne
        refine ⟨max f f', ?_⟩
        have e1 : pure (max f f') s = .ok c := by
          rw [mono f _ s (Nat.le_max_left _ _) (by rw [hf]; simp), hf]
        simp only [Plan.exec, e1]
        rw [← hf'] at hne ⊢
        exact exec_mono (fun s' hs' => mono f' _ s' (Nat.le_max_right _ _) hs') (k c) hne
      · have : pure fuel s ≠ RE := by
          intro h0
          exact hne (by simp only [Plan.exec, h0])
        have e1 := h3 this
        simp only [Plan.exec, ← e1] at hne ⊢
        exact g3 hne

/-- Every entry is what the registrations determine. -/
def EncCacheOk [Ext] (m : Mapping (Reg Encoder)) (c : EncCache) : Prop :=
  ∀ s e, c.lookup s = some e → ∃ f, getEncoderFuel m f s = .ok e

/-- Every entry is what the registrations determine. -/
def DecCacheOk [Ext] (m : Mapping (Reg Decoder)) (c : DecCache) : Prop :=
  ∀ s a d, c.lookup (s, a) = some d → ∃ f, getDecoderFuel m f s a.value = .ok d

theorem encCacheOk_cons [Ext] {m : Mapping (Reg Encoder)} {c : EncCache} (h : EncCacheOk m c)
    {s : TypeStr} {e : Encoder} {f : Nat} (he : getEncoderFuel m f s = .ok e) :
    EncCacheOk m ((s, e) :: c) := by
  intro s' e' h'
  rw [List.lookup_cons] at h'
  cases hs : s' == s with
  | true =>
    rw [hs] at h'
    rw [beq_iff_eq] at hs
    injection h' with h'
    subst h'; subst hs
    exact ⟨f, he⟩
  | false =>
    rw [hs] at h'
    exact h s' e' h'

theorem decCacheOk_cons [Ext] {m : Mapping (Reg Decoder)} {c : DecCache} (h : DecCacheOk m c)
    {s : TypeStr} {a : StrictArg} {d : Decoder} {f : Nat}
    (hd : getDecoderFuel m f s a.value = .ok d) : DecCacheOk m (((s, a), d) :: c) := by
  intro s' a' d' h'
  rw [List.lookup_cons] at h'
  cases hs : (s', a') == (s, a) with
  | true =>
    rw [hs] at h'
    rw [beq_iff_eq] at hs
    injection h' with h'
    injection hs with hs hs'
    subst h'; subst hs; subst hs'
    exact ⟨f, hd⟩
  | false =>
    rw [hs] at h'
    exact h s' a' d' h'

theorem cachedEncoder_agrees [Ext] (m : Mapping (Reg Encoder)) (fuel : Nat) : ∀ s c, EncCacheOk m c →
    Agrees (EncCacheOk m) (fun f => getEncoderFuel m f s) fuel (cachedEncoder m fuel s c) := by
  induction fuel with
  | zero => intro s c h; exact ⟨h, fun hne => absurd rfl hne, fun hne => absurd rfl hne⟩
  | succ fuel ih =>
    intro s c h
    unfold cachedEncoder
    cases hc : c.lookup s with
    | some e =>
      obtain ⟨f, hf⟩ := h s e hc
      refine ⟨h, fun _ => ⟨f, hf⟩, fun hne => ?_⟩
      rcases Nat.le_total f (fuel + 1) with hle | hle
      · exact ((encoderFuel_mono m hle (by rw [hf]; simp)).trans hf).symm
      · have := encoderFuel_mono m hle hne
        show Except.ok e = getEncoderFuel m (fuel + 1) s
        rw [← this, hf]
    | none =>
      cases hm : m.getRegistration s with
      | error e =>
        have : ∀ f, getEncoderFuel m (f + 1) s = .error e := by
          intro f; unfold getEncoderFuel; rw [hm]
        exact ⟨h, fun _ => ⟨1, this 0⟩, fun _ => (this fuel).symm⟩
      | ok g =>
        cases g with
        | obj e =>
          have : ∀ f, getEncoderFuel m (f + 1) s = .ok e := by
            intro f; unfold getEncoderFuel; rw [hm]
          exact ⟨encCacheOk_cons h (this 0), fun _ => ⟨1, this 0⟩, fun _ => (this fuel).symm⟩
        | cls plan =>
          have hp : ∀ f, getEncoderFuel m (f + 1) s = (plan s).exec (getEncoderFuel m f) := by
            intro f
            rw [show getEncoderFuel m (f + 1) s = (match m.getRegistration s with
              | .ok (.cls plan) => (plan s).exec (getEncoderFuel m f)
              | .ok (.obj e) => .ok e
              | .error e => .error e) from rfl, hm]
          obtain ⟨g1, g2, g3⟩ := execS_agrees (pure := getEncoderFuel m) (fuel := fuel)
            (fun f f' s hf hne => encoderFuel_mono m hf hne) ih (plan s) c h
          rcases hx : (plan s).execS (cachedEncoder m fuel) c with ⟨r, c'⟩
          rw [hx] at g1 g2 g3
          simp only at g1 g2 g3
          simp only [hx]
          cases r with
          | error e =>
            refine ⟨g1, fun hne => ?_, fun hne => ?_⟩
            · obtain ⟨f, hf⟩ := g2 hne
              exact ⟨f + 1, by show getEncoderFuel m (f + 1) s = .error e; rw [hp, hf]⟩
            · simp only [hp] at hne ⊢
              exact g3 hne
          | ok e =>
            obtain ⟨f, hf⟩ := g2 (by simp)
            refine ⟨encCacheOk_cons g1 (f := f + 1) (by rw [hp, hf]), fun hne => ?_, fun hne => ?_⟩
            · exact ⟨f + 1, by show getEncoderFuel m (f + 1) s = .ok e; rw [hp, hf]⟩
            · simp only [hp] at hne ⊢
              exact g3 hne

theorem cachedDecoder_agrees [Ext] (m : Mapping (Reg Decoder)) (fuel : Nat) : ∀ s a c fl,
    DecCacheOk m c →
    Agrees (fun st => DecCacheOk m st.1) (fun f => getDecoderFuel m f s a.value) fuel
      (cachedDecoder m fuel s a (c, fl)) := by
  induction fuel with
  | zero => intro s a c fl h; exact ⟨h, fun hne => absurd rfl hne, fun hne => absurd rfl hne⟩
  | succ fuel ih =>
    intro s a c fl h
    unfold cachedDecoder
    cases hc : c.lookup (s, a) with
    | some e =>
      obtain ⟨f, hf⟩ := h s a e hc
      refine ⟨h, fun _ => ⟨f, hf⟩, fun hne => ?_⟩
      rcases Nat.le_total f (fuel + 1) with hle | hle
      · exact ((decoderFuel_mono m hle (by rw [hf]; simp)).trans hf).symm
      · have := decoderFuel_mono m hle hne
        show Except.ok e = getDecoderFuel m (fuel + 1) s a.value
        rw [← this, hf]
    | none =>
      cases hm : m.getRegistration s with
      | error e =>
        have : ∀ f, getDecoderFuel m (f + 1) s a.value = .error e := by
          intro f; unfold getDecoderFuel; rw [hm]
        exact ⟨h, fun _ => ⟨1, this 0⟩, fun _ => (this fuel).symm⟩
      | ok g =>
        cases g with
        | obj d =>
          have : ∀ f, getDecoderFuel m (f + 1) s a.value = .ok (d.setStrict a.value) := by
            intro f; unfold getDecoderFuel; rw [hm]
          exact ⟨decCacheOk_cons h (this 0), fun _ => ⟨1, this 0⟩, fun _ => (this fuel).symm⟩
        | cls plan =>
          have hp : ∀ f, getDecoderFuel m (f + 1) s a.value =
              (do let d ← (plan s).exec (fun s' => getDecoderFuel m f s' true)
                  return d.setStrict a.value) := by
            intro f
            rw [show getDecoderFuel m (f + 1) s a.value = (match m.getRegistration s with
              | .ok (.cls plan) => do
                let d ← (plan s).exec (fun s' => getDecoderFuel m f s' true)
                return d.setStrict a.value
              | .ok (.obj d) => .ok (d.setStrict a.value)
              | .error e => .error e) from rfl, hm]
          obtain ⟨g1, g2, g3⟩ := execS_agrees (pure := fun f s' => getDecoderFuel m f s' true)
            (Ok := fun st => DecCacheOk m st.1)
            (look := fun s' => cachedDecoder m fuel s' .absent) (fuel := fuel)
            (fun f f' s hf hne => decoderFuel_mono m hf hne)
            (fun s' st hst => ih s' .absent st.1 st.2 hst) (plan s) (c, fl) h
          rcases hx : (plan s).execS (fun s' => cachedDecoder m fuel s' .absent) (c, fl) with
            ⟨r, c', fl'⟩
          rw [hx] at g1 g2 g3
          simp only at g1 g2 g3
          simp only [hx]
          cases r with
          | error e =>
            refine ⟨g1, fun hne => ?_, fun hne => ?_⟩
            · obtain ⟨f, hf⟩ := g2 hne
              exact ⟨f + 1, by show getDecoderFuel m (f + 1) s a.value = .error e; rw [hp, hf]; rfl⟩
            · simp only [hp] at hne ⊢
              have := g3 (setStrict_bind hne)
              rw [← this]; rfl
          | ok d =>
            obtain ⟨f, hf⟩ := g2 (by simp)
            have hfd : getDecoderFuel m (f + 1) s a.value = .ok (d.setStrict a.value) := by
              rw [hp, hf]; rfl
            refine ⟨decCacheOk_cons g1 hfd, fun hne => ⟨f + 1, hfd⟩, fun hne => ?_⟩
            simp only [hp] at hne ⊢
            have := g3 (setStrict_bind hne)
            rw [← this]; rfl

theorem comesTo_of {α : Type} {f : Nat → PyM α} (mono : ∀ n n', n ≤ n' → f n ≠ RE → f n' = f n)
    {r : PyM α} {n : Nat} (hr : r ≠ RE) (h : f n = r) : ComesTo f r :=
  ⟨n, fun n' hn => by rw [mono n n' hn (by rw [h]; exact hr), h]⟩

end EthAbi
