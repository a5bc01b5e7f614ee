import Verif.Spec.Concurrent
import Verif.Lemmas.World
import Mathlib.Data.List.Induction

/-! # Threads that share a registry -/
namespace EthAbi.Conc
open EthAbi EthAbi.Spec

variable {K C : Type} [BEq K] [LawfulBEq K] [Ext]

/-- The lookup without the cache. -/
def uncached (S : Side K C) (m : Mapping (Reg C)) : Nat → K → PyM C
  | 0, _ => RE
  | fuel + 1, k =>
    match m.getRegistration (S.str k) with
    | .ok (.cls plan) => do
      let c ← (plan (S.str k)).exec (fun s => uncached S m fuel (S.nested s))
      return S.finish k c
    | .ok (.obj c) => .ok (S.finish k c)
    | .error e => .error e

theorem uncached_enc (m : Mapping (Reg Encoder)) (f : Nat) : ∀ s,
    uncached encSide m f s = getEncoderFuel m f s := by
  induction f with
  | zero => intro s; rfl
  | succ f ih =>
    intro s
    unfold uncached getEncoderFuel
    have : (fun s => uncached encSide m f (encSide.nested s)) = getEncoderFuel m f := by
      funext s; exact ih s
    simp only [this]
    have hs : encSide.str s = s := rfl
    rw [hs]
    cases m.getRegistration s with
    | error e => rfl
    | ok g =>
      cases g with
      | obj e => rfl
      | cls plan =>
        show ((plan s).exec _ >>= fun c => pure c) = _
        exact bind_pure _

theorem uncached_dec (m : Mapping (Reg Decoder)) (f : Nat) : ∀ k,
    uncached decSide m f k = getDecoderFuel m f k.1 k.2.value := by
  induction f with
  | zero => intro s; rfl
  | succ f ih =>
    intro k
    unfold uncached getDecoderFuel
    have : (fun s => uncached decSide m f (decSide.nested s)) = fun s => getDecoderFuel m f s true := by
      funext s; exact ih (s, .absent)
    simp only [this]
    have hs : decSide.str k = k.1 := rfl
    rw [hs]
    cases m.getRegistration k.1 with
    | error e => rfl
    | ok g => cases g <;> rfl

theorem uncached_bind {S : Side K C} {k : K} {x : PyM C}
    (h : (do let c ← x; return S.finish k c) ≠ RE) : x ≠ RE := by
  intro hx; rw [hx] at h; exact h rfl

theorem uncached_mono (S : Side K C) (m : Mapping (Reg C)) {f f' : Nat} (hf : f ≤ f') {k : K}
    (h : uncached S m f k ≠ RE) : uncached S m f' k = uncached S m f k := by
  induction f generalizing f' k with
  | zero => exact absurd rfl h
  | succ f ih =>
    obtain ⟨f', rfl⟩ : ∃ g, f' = g + 1 := ⟨f' - 1, by omega⟩
    unfold uncached at h ⊢
    cases hm : m.getRegistration (S.str k) with
    | error e => rfl
    | ok g =>
      cases g with
      | obj e => rfl
      | cls plan =>
        rw [hm] at h
        have := exec_mono (fun s => ih (f' := f') (by omega) (k := S.nested s)) (plan (S.str k))
          (uncached_bind h)
        simp only [this]

/-- The entry is what the registrations determine. -/
def FreshAt (S : Side K C) (m : Mapping (Reg C)) (k : K) (c : C) : Prop :=
  ∃ f, uncached S m f k = .ok c

/-- The result is what the registrations determine. -/
def Right (pure : Nat → PyM C) (fuel : Nat) (r : PyM C) : Prop :=
  (r ≠ RE → ∃ f, pure f = r) ∧ (pure fuel ≠ RE → r = pure fuel)

/-- The rest of a lookup is right: given answers from `m` and from a cache that `E` describes, it
stores what `E` allows and its result satisfies `Q`. -/
def Fine (E : K → C → Prop) (F : TypeStr → PyM (Reg C) → Prop) (Q : PyM C → Prop) : Prog K C → Prop
  | .ret r => Q r
  | .cacheGet k next => Fine E F Q (next none) ∧ ∀ c, E k c → Fine E F Q (next (some c))
  | .find s next => ∀ r, F s r → Fine E F Q (next r)
  | .setStrict _ next => Fine E F Q next
  | .cachePut k c next => E k c ∧ Fine E F Q next

theorem right_fresh {S : Side K C} {m : Mapping (Reg C)} {k : K} {c : C} (h : FreshAt S m k c)
    (fuel : Nat) : Right (fun f => uncached S m f k) fuel (.ok c) := by
  obtain ⟨f, hf⟩ := h
  refine ⟨fun _ => ⟨f, hf⟩, fun hne => ?_⟩
  rcases Nat.le_total f fuel with hle | hle
  · exact ((uncached_mono S m hle (by rw [hf]; simp)).trans hf).symm
  · exact hf.symm.trans (uncached_mono S m hle hne)

theorem planProg_fine {E : K → C → Prop} {F : TypeStr → PyM (Reg C) → Prop} {Q : PyM C → Prop}
    {S : Side K C} {m : Mapping (Reg C)} {fuel : Nat}
    {look : TypeStr → (PyM C → Prog K C) → Prog K C}
    (hl : ∀ s next, (∀ r, Right (fun f => uncached S m f (S.nested s)) fuel r → Fine E F Q (next r)) →
      Fine E F Q (look s next)) (p : Plan C) : ∀ next,
    (∀ r, Right (fun f => p.exec (fun s => uncached S m f (S.nested s))) fuel r → Fine E F Q (next r)) →
    Fine E F Q (planProg look p next) := by
  induction p with
  | ret r => intro next h; exact h r ⟨fun _ => ⟨0, rfl⟩, fun _ => rfl⟩
  | ask s k ih =>
    intro next h
    unfold planProg
    refine hl s _ fun r hr => ?_
    cases r with
    | error e =>
      refine h _ ⟨fun hne => ?_, fun hne => ?_⟩
      · obtain ⟨f, hf⟩ := hr.1 hne
        exact ⟨f, by simp only [Plan.exec, hf]⟩
      · have : uncached S m fuel (S.nested s) ≠ RE := by
          intro h0
          exact hne (by simp only [Plan.exec, h0])
        simp only [Plan.exec, ← hr.2 this]
    | ok c =>
      refine ih c next fun r' hr' => h r' ⟨fun hne => ?_, fun hne => ?_⟩
      · obtain ⟨f, hf⟩ := hr.1 (by simp)
        obtain ⟨f', hf'⟩ := hr'.1 hne
        refine ⟨max f f', ?_⟩
        have hf : uncached S m f (S.nested s) = .ok c := hf
        have e1 : uncached S m (max f f') (S.nested s) = .ok c := by
          rw [uncached_mono S m (Nat.le_max_left f f') (by rw [hf]; simp), hf]
        simp only [Plan.exec, e1]
        rw [← hf'] at hne ⊢
        exact exec_mono (fun s' hs' => uncached_mono S m (Nat.le_max_right f f') hs') (k c) hne
      · have : uncached S m fuel (S.nested s) ≠ RE := by
          intro h0
          exact hne (by simp only [Plan.exec, h0])
        have e1 := hr.2 this
        simp only [Plan.exec, ← e1] at hne ⊢
        exact hr'.2 hne

theorem lookProg_fine (S : Side K C) (m : Mapping (Reg C)) (Q : PyM C → Prop) (fuel : Nat) : ∀ k next,
    (∀ r, Right (fun f => uncached S m f k) fuel r →
      Fine (FreshAt S m) (fun s r => r = m.getRegistration s) Q (next r)) →
    Fine (FreshAt S m) (fun s r => r = m.getRegistration s) Q (lookProg S fuel k next) := by
  induction fuel with
  | zero => intro k next h; exact h _ ⟨fun hne => absurd rfl hne, fun hne => absurd rfl hne⟩
  | succ fuel ih =>
    intro k next h
    refine ⟨?_, fun c hc => h _ (right_fresh hc _)⟩
    rintro r rfl
    cases hm : m.getRegistration (S.str k) with
    | error e =>
      have : ∀ f, uncached S m (f + 1) k = .error e := by
        intro f; unfold uncached; rw [hm]
      exact h _ ⟨fun _ => ⟨1, this 0⟩, fun _ => (this fuel).symm⟩
    | ok g =>
      cases g with
      | obj c =>
        have : ∀ f, uncached S m (f + 1) k = .ok (S.finish k c) := by
          intro f; unfold uncached; rw [hm]
        exact ⟨⟨1, this 0⟩, h _ ⟨fun _ => ⟨1, this 0⟩, fun _ => (this fuel).symm⟩⟩
      | cls plan =>
        have hp : ∀ f, uncached S m (f + 1) k =
            (do let c ← (plan (S.str k)).exec (fun s => uncached S m f (S.nested s))
                return S.finish k c) := by
          intro f
          rw [show uncached S m (f + 1) k = (match m.getRegistration (S.str k) with
            | .ok (.cls plan) => do
              let c ← (plan (S.str k)).exec (fun s => uncached S m f (S.nested s))
              return S.finish k c
            | .ok (.obj c) => .ok (S.finish k c)
            | .error e => .error e) from rfl, hm]
        refine planProg_fine (fuel := fuel) (fun s next hn => ih (S.nested s) next hn) (plan (S.str k)) _
          fun r hr => ?_
        cases r with
        | error x =>
          refine h _ ⟨fun hne => ?_, fun hne => ?_⟩
          · obtain ⟨f, hf⟩ := hr.1 hne
            refine ⟨f + 1, ?_⟩
            show uncached S m (f + 1) k = _
            beta_reduce at hf
            rw [hp, hf]; rfl
          · beta_reduce at hne
            rw [hp] at hne
            have := hr.2 (uncached_bind hne)
            beta_reduce at this
            show _ = uncached S m (fuel + 1) k
            rw [hp, ← this]; rfl
        | ok c =>
          obtain ⟨f, hf⟩ := hr.1 (by simp)
          beta_reduce at hf
          have hfk : uncached S m (f + 1) k = .ok (S.finish k c) := by rw [hp, hf]; rfl
          refine ⟨⟨f + 1, hfk⟩, h _ ⟨fun _ => ⟨f + 1, hfk⟩, fun hne => ?_⟩⟩
          beta_reduce at hne
          rw [hp] at hne
          have := hr.2 (uncached_bind hne)
          beta_reduce at this
          show _ = uncached S m (fuel + 1) k
          rw [hp, ← this]; rfl

/-- The same without assuming that the registrations stay the same. -/
theorem planProg_assembled {S : Side K C} {H : Mapping (Reg C) → Prop} {Q : PyM C → Prop}
    {look : TypeStr → (PyM C → Prog K C) → Prog K C}
    (hl : ∀ s next, (∀ r, (∀ c, r = .ok c → Assembled S H (S.nested s) c) →
        Fine (Assembled S H) (fun s r => ∃ m, H m ∧ r = m.getRegistration s) Q (next r)) →
      Fine (Assembled S H) (fun s r => ∃ m, H m ∧ r = m.getRegistration s) Q (look s next))
    (p : Plan C) : ∀ next,
    (∀ r, (∀ c, r = .ok c → AssembledPlan S H p c) →
      Fine (Assembled S H) (fun s r => ∃ m, H m ∧ r = m.getRegistration s) Q (next r)) →
    Fine (Assembled S H) (fun s r => ∃ m, H m ∧ r = m.getRegistration s) Q (planProg look p next) := by
  induction p with
  | ret r => intro next h; exact h r fun c hc => by rw [hc]; exact .ret
  | ask s k ih =>
    intro next h
    unfold planProg
    refine hl s _ fun r hr => ?_
    cases r with
    | error e => exact h _ fun c hc => by cases hc
    | ok c => exact ih c next fun r' hr' => h r' fun c' hc' => .ask (hr c rfl) (hr' c' hc')

theorem lookProg_assembled (S : Side K C) (H : Mapping (Reg C) → Prop) (Q : PyM C → Prop) (fuel : Nat) :
    ∀ k next, (∀ r, (∀ c, r = .ok c → Assembled S H k c) →
      Fine (Assembled S H) (fun s r => ∃ m, H m ∧ r = m.getRegistration s) Q (next r)) →
    Fine (Assembled S H) (fun s r => ∃ m, H m ∧ r = m.getRegistration s) Q (lookProg S fuel k next) := by
  induction fuel with
  | zero => intro k next h; exact h _ fun c hc => by cases hc
  | succ fuel ih =>
    intro k next h
    refine ⟨?_, fun c hc => h _ fun c' hc' => by injection hc' with hc'; rw [← hc']; exact hc⟩
    rintro r ⟨m, hm, rfl⟩
    cases hg : m.getRegistration (S.str k) with
    | error e => exact h _ fun c hc => by cases hc
    | ok g =>
      cases g with
      | obj c =>
        have := Assembled.obj (S := S) (H := H) hm hg
        exact ⟨this, h _ fun c' hc' => by injection hc' with hc'; rw [← hc']; exact this⟩
      | cls plan =>
        refine planProg_assembled (fun s next hn => ih (S.nested s) next hn) (plan (S.str k)) _
          fun r hr => ?_
        cases r with
        | error x => exact h _ fun c hc => by cases hc
        | ok c =>
          have := Assembled.cls (S := S) (H := H) hm hg (hr c rfl)
          exact ⟨this, h _ fun c' hc' => by injection hc' with hc'; rw [← hc']; exact this⟩

theorem fine_step {E : K → C → Prop} {F : TypeStr → PyM (Reg C) → Prop} {Q : PyM C → Prop}
    {sh : Shared K C} (hE : ∀ k c, sh.cache.lookup k = some c → E k c)
    (hF : ∀ s, F s (sh.regs.getRegistration s)) {p : Prog K C} (h : Fine E F Q p) :
    Fine E F Q (p.step sh).2 ∧ (∀ k c, (p.step sh).1.cache.lookup k = some c → E k c) ∧
      (p.step sh).1.regs = sh.regs := by
  cases p with
  | ret r => exact ⟨h, hE, rfl⟩
  | cacheGet k next =>
    refine ⟨?_, hE, rfl⟩
    show Fine E F Q (next (sh.cache.lookup k))
    cases hk : sh.cache.lookup k with
    | none => exact h.1
    | some c => exact h.2 c (hE k c hk)
  | find s next => exact ⟨h _ (hF s), hE, rfl⟩
  | setStrict f next => exact ⟨h, hE, rfl⟩
  | cachePut k c next =>
    refine ⟨h.2, fun k' c' h' => ?_, rfl⟩
    change ((k, c) :: sh.cache).lookup k' = some c' at h'
    rw [List.lookup_cons] at h'
    cases hs : k' == k with
    | true =>
      rw [hs] at h'
      rw [beq_iff_eq] at hs
      injection h' with h'
      subst h'; subst hs
      exact h.1
    | false =>
      rw [hs] at h'
      exact hE k' c' h'

/-! ## Steps of the system -/

/-- What a step does: the thread is not there, or it is replaced. -/
theorem sysStep_cases (S : Side K C) (c : System K C) (i : Nat) :
    (c.threads[i]? = none ∧ c.step S i = c) ∨ ∃ t, c.threads[i]? = some t ∧
      c.step S i = ⟨(t.step S c.shared).1, c.threads.set i (t.step S c.shared).2⟩ := by
  unfold System.step
  cases h : c.threads[i]? with
  | none => exact .inl ⟨rfl, rfl⟩
  | some t => exact .inr ⟨t, rfl, rfl⟩

theorem get_set {α : Type} {l : List α} {i j : Nat} {x y : α} (h : (l.set i x)[j]? = some y) :
    (i = j ∧ y = x) ∨ (i ≠ j ∧ l[j]? = some y) := by
  rw [List.getElem?_set] at h
  split at h
  · next hij =>
    split at h
    · injection h with h; exact .inl ⟨hij, h.symm⟩
    · cases h
  · next hij => exact .inr ⟨hij, h⟩

theorem set_get {α : Type} {l : List α} {i : Nat} {x y : α} (h : l[i]? = some y) :
    (l.set i x)[i]? = some x := by
  rw [List.getElem?_set]
  obtain ⟨hi, _⟩ := List.getElem?_eq_some_iff.1 h
  simp [hi]

/-- The five steps of a thread. -/
theorem threadStep_cases (S : Side K C) (sh : Shared K C) (t : Thread K C) :
    (t.phase = .idle ∧ t.todo = [] ∧ t.step S sh = (sh, t)) ∨
    (t.phase = .idle ∧ ∃ fuel k rest, t.step S sh =
      (sh, { t with todo := rest, phase := .looking fuel k (lookProg S fuel k .ret) })) ∨
    (t.phase = .idle ∧ ∃ op rest, t.step S sh =
      ({ sh with cache := [] }, { t with todo := rest, phase := .cleared op })) ∨
    (∃ fuel k r, t.phase = .looking fuel k (.ret r) ∧
      t.step S sh = (sh, { t with phase := .idle, log := .found fuel k r :: t.log })) ∨
    (∃ fuel k p, t.phase = .looking fuel k p ∧
      t.step S sh = ((p.step sh).1, { t with phase := .looking fuel k (p.step sh).2 })) ∨
    (∃ op, t.phase = .cleared op ∧ t.step S sh = ({ sh with regs := (op.change sh.regs).2 },
      { t with phase := .idle, log := .changed (op.change sh.regs).1 :: t.log })) := by
  unfold Thread.step
  cases hp : t.phase with
  | idle =>
    cases ht : t.todo with
    | nil => exact .inl ⟨rfl, rfl, rfl⟩
    | cons op rest =>
      cases op with
      | lookup fuel k => exact .inr (.inl ⟨rfl, fuel, k, rest, rfl⟩)
      | register l v label => exact .inr (.inr (.inl ⟨rfl, _, rest, rfl⟩))
      | unregister l => exact .inr (.inr (.inl ⟨rfl, _, rest, rfl⟩))
  | looking fuel k p =>
    cases p with
    | ret r => exact .inr (.inr (.inr (.inl ⟨fuel, k, r, rfl, rfl⟩)))
    | cacheGet k' next => exact .inr (.inr (.inr (.inr (.inl ⟨fuel, k, _, rfl, rfl⟩))))
    | find s next => exact .inr (.inr (.inr (.inr (.inl ⟨fuel, k, _, rfl, rfl⟩))))
    | setStrict f next => exact .inr (.inr (.inr (.inr (.inl ⟨fuel, k, _, rfl, rfl⟩))))
    | cachePut k' c next => exact .inr (.inr (.inr (.inr (.inl ⟨fuel, k, _, rfl, rfl⟩))))
  | cleared op => exact .inr (.inr (.inr (.inr (.inr ⟨op, rfl, rfl⟩))))

/-- What holds between the steps if changes are exclusive. -/
structure Inv (S : Side K C) (c : System K C) : Prop where
  fresh : ∀ k v, c.shared.cache.lookup k = some v → FreshAt S c.shared.regs k v
  clear : ∀ (i : Nat) t op, c.threads[i]? = some t → t.phase = .cleared op → c.shared.cache = []
  look : ∀ (i : Nat) t fuel k p, c.threads[i]? = some t → t.phase = .looking fuel k p →
    Fine (FreshAt S c.shared.regs) (fun s r => r = c.shared.regs.getRegistration s)
      (Right (fun f => uncached S c.shared.regs f k) fuel) p

theorem inv_step {S : Side K C} {c : System K C} (h : Inv S c) (hx : Exclusive c) (i : Nat)
    (hx' : Exclusive (c.step S i)) : Inv S (c.step S i) := by
  rcases sysStep_cases S c i with ⟨_, he⟩ | ⟨t, ht, he⟩
  · rw [he]; exact h
  rw [he] at hx' ⊢
  have hself := fun x => set_get (x := x) ht
  rcases threadStep_cases S c.shared t with ⟨hp, _, hs⟩ | ⟨hp, fuel, k, rest, hs⟩ | ⟨hp, op, rest, hs⟩ |
    ⟨fuel, k, r, hp, hs⟩ | ⟨fuel, k, p, hp, hs⟩ | ⟨op, hp, hs⟩
  · rw [hs] at hx' ⊢
    refine ⟨h.fresh, fun j u op hu hph => ?_, fun j u fuel k p hu hph => ?_⟩
    · rcases get_set hu with ⟨rfl, rfl⟩ | ⟨_, hu⟩
      · exact h.clear _ _ op ht hph
      · exact h.clear j u op hu hph
    · rcases get_set hu with ⟨rfl, rfl⟩ | ⟨_, hu⟩
      · exact h.look _ _ fuel k p ht hph
      · exact h.look j u fuel k p hu hph
  · rw [hs] at hx' ⊢
    refine ⟨h.fresh, fun j u op hu hph => ?_, fun j u fuel' k' p hu hph => ?_⟩
    · rcases get_set hu with ⟨rfl, rfl⟩ | ⟨_, hu⟩
      · cases hph
      · exact h.clear j u op hu hph
    · rcases get_set hu with ⟨rfl, rfl⟩ | ⟨_, hu⟩
      · injection hph with h1 h2 h3
        subst h1; subst h2; subst h3
        exact lookProg_fine S _ _ fuel k _ fun r hr => hr
      · exact h.look j u fuel' k' p hu hph
  · rw [hs] at hx' ⊢
    refine ⟨fun k v hk => (by cases hk), fun j u op hu hph => rfl, fun j u fuel' k' p hu hph => ?_⟩
    rcases get_set hu with ⟨rfl, rfl⟩ | ⟨hij, hu'⟩
    · cases hph
    · have := hx' i j _ u op (hself _) hu hij rfl
      rw [this] at hph
      cases hph
  · rw [hs] at hx' ⊢
    refine ⟨h.fresh, fun j u op hu hph => ?_, fun j u fuel' k' p hu hph => ?_⟩
    · rcases get_set hu with ⟨rfl, rfl⟩ | ⟨_, hu⟩
      · cases hph
      · exact h.clear j u op hu hph
    · rcases get_set hu with ⟨rfl, rfl⟩ | ⟨_, hu⟩
      · cases hph
      · exact h.look j u fuel' k' p hu hph
  · rw [hs] at hx' ⊢
    obtain ⟨g1, g2, g3⟩ := fine_step (sh := c.shared)
      (F := fun s r => r = c.shared.regs.getRegistration s) h.fresh (fun s => rfl) (h.look i t fuel k p ht hp)
    refine ⟨?_, fun j u op hu hph => ?_, fun j u fuel' k' p' hu hph => ?_⟩
    · intro k v hk
      show FreshAt S (p.step c.shared).1.regs k v
      rw [g3]
      exact g2 k v hk
    · rcases get_set hu with ⟨rfl, rfl⟩ | ⟨hij, hu⟩
      · cases hph
      · have := hx j i u t op hu ht (Ne.symm hij) hph
        rw [this] at hp
        cases hp
    · show Fine (FreshAt S (p.step c.shared).1.regs)
        (fun s r => r = (p.step c.shared).1.regs.getRegistration s)
        (Right (fun f => uncached S (p.step c.shared).1.regs f k') fuel') p'
      rw [g3]
      rcases get_set hu with ⟨rfl, rfl⟩ | ⟨_, hu⟩
      · injection hph with h1 h2 h3
        subst h1; subst h2; subst h3
        exact g1
      · exact h.look j u fuel' k' p' hu hph
  · rw [hs] at hx' ⊢
    have hc := h.clear i t op ht hp
    refine ⟨fun k v hk => ?_, fun j u op' hu hph => ?_, fun j u fuel' k' p hu hph => ?_⟩
    · have hk : c.shared.cache.lookup k = some v := hk
      rw [hc] at hk
      cases hk
    · exact hc
    · rcases get_set hu with ⟨rfl, rfl⟩ | ⟨hij, hu⟩
      · cases hph
      · have := hx i j t u op ht hu hij hp
        rw [this] at hph
        cases hph

theorem run_snoc (S : Side K C) (c : System K C) (sched : List Nat) (i : Nat) :
    c.run S (sched ++ [i]) = (c.run S sched).step S i := by
  induction sched generalizing c with
  | nil => rfl
  | cons j sched ih => exact ih (c.step S j)

theorem run_append (S : Side K C) (c : System K C) (s s' : List Nat) :
    c.run S (s ++ s') = (c.run S s).run S s' := by
  induction s generalizing c with
  | nil => rfl
  | cons j s ih => exact ih (c.step S j)

theorem inv_run {S : Side K C} {c : System K C} (h : Inv S c) (sched : List Nat)
    (hx : ∀ pre, pre <+: sched → Exclusive (c.run S pre)) : Inv S (c.run S sched) := by
  induction sched using List.reverseRecOn with
  | nil => exact h
  | append_singleton sched i ih =>
    rw [run_snoc]
    refine inv_step (ih fun pre hp => hx pre (hp.trans (List.prefix_append _ _)))
      (hx _ (List.prefix_append _ _)) i ?_
    rw [← run_snoc]
    exact hx _ (List.prefix_rfl)

theorem returns_phase {S : Side K C} {c : System K C} {i fuel : Nat} {k : K} {r : PyM C}
    (h : Returns S c i fuel k r) : ∃ t, c.threads[i]? = some t ∧ t.phase = .looking fuel k (.ret r) := by
  obtain ⟨t, t', h1, h2, h3⟩ := h
  refine ⟨t, h1, ?_⟩
  rcases sysStep_cases S c i with ⟨h0, _⟩ | ⟨u, hu, he⟩
  · rw [h0] at h1; cases h1
  rw [h1] at hu
  injection hu with hu
  subst hu
  rw [he] at h2
  rw [set_get h1] at h2
  injection h2 with h2
  subst h2
  have hne : ∀ x : Result K C, x :: t.log ≠ t.log := fun x hx => by
    have := congrArg List.length hx
    simp at this
  rcases threadStep_cases S c.shared t with ⟨hp, _, hs⟩ | ⟨hp, fuel, k, rest, hs⟩ | ⟨hp, op, rest, hs⟩ |
    ⟨fuel, k, r, hp, hs⟩ | ⟨fuel, k, p, hp, hs⟩ | ⟨op, hp, hs⟩
  · rw [hs] at h3; exact absurd h3.symm (hne _)
  · rw [hs] at h3; exact absurd h3.symm (hne _)
  · rw [hs] at h3; exact absurd h3.symm (hne _)
  · rw [hs] at h3
    injection h3 with h3
    injection h3 with e1 e2 e3
    rw [hp, e1, e2, e3]
  · rw [hs] at h3; exact absurd h3.symm (hne _)
  · rw [hs] at h3
    injection h3 with h3
    cases h3

/-- What holds between the steps in any case. -/
structure InvA (S : Side K C) (H : Mapping (Reg C) → Prop) (c : System K C) : Prop where
  fresh : ∀ k v, c.shared.cache.lookup k = some v → Assembled S H k v
  look : ∀ (i : Nat) t fuel k p, c.threads[i]? = some t → t.phase = .looking fuel k p →
    Fine (Assembled S H) (fun s r => ∃ m, H m ∧ r = m.getRegistration s)
      (fun r => ∀ v, r = .ok v → Assembled S H k v) p

theorem invA_step {S : Side K C} {H : Mapping (Reg C) → Prop} {c : System K C} (h : InvA S H c)
    (hH : H c.shared.regs) (i : Nat) : InvA S H (c.step S i) := by
  rcases sysStep_cases S c i with ⟨_, he⟩ | ⟨t, ht, he⟩
  · rw [he]; exact h
  rw [he]
  rcases threadStep_cases S c.shared t with ⟨hp, _, hs⟩ | ⟨hp, fuel, k, rest, hs⟩ | ⟨hp, op, rest, hs⟩ |
    ⟨fuel, k, r, hp, hs⟩ | ⟨fuel, k, p, hp, hs⟩ | ⟨op, hp, hs⟩
  · rw [hs]
    refine ⟨h.fresh, fun j u fuel k p hu hph => ?_⟩
    rcases get_set hu with ⟨rfl, rfl⟩ | ⟨_, hu⟩
    · exact h.look _ _ fuel k p ht hph
    · exact h.look j u fuel k p hu hph
  · rw [hs]
    refine ⟨h.fresh, fun j u fuel' k' p hu hph => ?_⟩
    rcases get_set hu with ⟨rfl, rfl⟩ | ⟨_, hu⟩
    · injection hph with h1 h2 h3
      subst h1; subst h2; subst h3
      exact lookProg_assembled S H _ fuel k _ fun r hr => hr
    · exact h.look j u fuel' k' p hu hph
  · rw [hs]
    refine ⟨fun k v hk => (by cases hk), fun j u fuel' k' p hu hph => ?_⟩
    rcases get_set hu with ⟨rfl, rfl⟩ | ⟨hij, hu⟩
    · cases hph
    · exact h.look j u fuel' k' p hu hph
  · rw [hs]
    refine ⟨h.fresh, fun j u fuel' k' p hu hph => ?_⟩
    rcases get_set hu with ⟨rfl, rfl⟩ | ⟨_, hu⟩
    · cases hph
    · exact h.look j u fuel' k' p hu hph
  · rw [hs]
    obtain ⟨g1, g2, g3⟩ := fine_step (sh := c.shared) h.fresh (fun s => ⟨_, hH, rfl⟩)
      (h.look i t fuel k p ht hp)
    refine ⟨g2, fun j u fuel' k' p' hu hph => ?_⟩
    rcases get_set hu with ⟨rfl, rfl⟩ | ⟨_, hu⟩
    · injection hph with h1 h2 h3
      subst h1; subst h2; subst h3
      exact g1
    · exact h.look j u fuel' k' p' hu hph
  · rw [hs]
    refine ⟨h.fresh, fun j u fuel' k' p hu hph => ?_⟩
    rcases get_set hu with ⟨rfl, rfl⟩ | ⟨hij, hu⟩
    · cases hph
    · exact h.look j u fuel' k' p hu hph

theorem invA_run {S : Side K C} {H : Mapping (Reg C) → Prop} {c : System K C} (h : InvA S H c)
    (sched : List Nat) (hH : ∀ pre, pre <+: sched → H (c.run S pre).shared.regs) :
    InvA S H (c.run S sched) := by
  induction sched using List.reverseRecOn with
  | nil => exact h
  | append_singleton sched i ih =>
    rw [run_snoc]
    exact invA_step (ih fun pre hp => hH pre (hp.trans (List.prefix_append _ _)))
      (hH _ (List.prefix_append _ _)) i

/-! ## A lookup that runs alone -/

/-- The rest of a lookup, without interruption. -/
def execProg (sh : Shared K C) : Prog K C → PyM C × Shared K C
  | .ret r => (r, sh)
  | .cacheGet k next => execProg sh (next (sh.cache.lookup k))
  | .find s next => execProg sh (next (sh.regs.getRegistration s))
  | .setStrict f next => execProg { sh with flags := f sh.flags } next
  | .cachePut k c next => execProg { sh with cache := (k, c) :: sh.cache } next

/-- A whole lookup, without interruption. -/
def seqLook (S : Side K C) : Nat → K → Shared K C → PyM C × Shared K C
  | 0, _, sh => (RE, sh)
  | fuel + 1, k, sh =>
    match sh.cache.lookup k with
    | some c => (.ok c, sh)
    | none =>
      match sh.regs.getRegistration (S.str k) with
      | .ok (.cls plan) =>
        match (plan (S.str k)).execS (fun s => seqLook S fuel (S.nested s)) sh with
        | (.ok c, sh) => (.ok (S.finish k c),
          { sh with flags := S.write k c sh.flags, cache := (k, S.finish k c) :: sh.cache })
        | (.error x, sh) => (.error x, sh)
      | .ok (.obj c) => (.ok (S.finish k c),
          { sh with flags := S.write k c sh.flags, cache := (k, S.finish k c) :: sh.cache })
      | .error x => (.error x, sh)

theorem execProg_plan {look : TypeStr → (PyM C → Prog K C) → Prog K C}
    {seq : TypeStr → Shared K C → PyM C × Shared K C}
    (hl : ∀ s sh next, execProg sh (look s next) = execProg (seq s sh).2 (next (seq s sh).1)) (p : Plan C) :
    ∀ sh next, execProg sh (planProg look p next) =
      execProg (p.execS seq sh).2 (next (p.execS seq sh).1) := by
  induction p with
  | ret r => intro sh next; rfl
  | ask s k ih =>
    intro sh next
    unfold planProg Plan.execS
    rw [hl]
    generalize seq s sh = x
    obtain ⟨r, sh'⟩ := x
    cases r with
    | ok c => exact ih c sh' next
    | error e => rfl

theorem execProg_look (S : Side K C) (fuel : Nat) : ∀ k sh next,
    execProg sh (lookProg S fuel k next) = execProg (seqLook S fuel k sh).2 (next (seqLook S fuel k sh).1) := by
  induction fuel with
  | zero => intro k sh next; rfl
  | succ fuel ih =>
    intro k sh next
    unfold lookProg seqLook
    simp only [execProg]
    cases hk : sh.cache.lookup k with
    | some c => rfl
    | none =>
      simp only [execProg]
      cases hm : sh.regs.getRegistration (S.str k) with
      | error e => rfl
      | ok g =>
        cases g with
        | obj c => rfl
        | cls plan =>
          simp only
          rw [execProg_plan (fun s sh next => ih (S.nested s) sh next)]
          generalize Plan.execS (fun s => seqLook S fuel (S.nested s)) (plan (S.str k)) sh = x
          obtain ⟨r, sh'⟩ := x
          cases r with
          | ok c => rfl
          | error e => rfl

theorem execS_map {σ τ : Type} {look : TypeStr → σ → PyM C × σ} {look' : TypeStr → τ → PyM C × τ}
    {Rel : σ → τ → Prop} (hl : ∀ s st st', Rel st st' → (look s st).1 = (look' s st').1 ∧
      Rel (look s st).2 (look' s st').2) (p : Plan C) : ∀ st st', Rel st st' →
    (p.execS look st).1 = (p.execS look' st').1 ∧ Rel (p.execS look st).2 (p.execS look' st').2 := by
  induction p with
  | ret r => intro st st' h; exact ⟨rfl, h⟩
  | ask s k ih =>
    intro st st' h
    unfold Plan.execS
    obtain ⟨h1, h2⟩ := hl s st st' h
    generalize look s st = x at h1 h2 ⊢
    generalize look' s st' = y at h1 h2 ⊢
    obtain ⟨r, a⟩ := x
    obtain ⟨r', b⟩ := y
    simp only at h1 h2
    subst h1
    cases r with
    | ok c => exact ih c a b h2
    | error e => exact ⟨rfl, h2⟩

theorem seqLook_enc (m : Mapping (Reg Encoder)) (fl : Flags) (fuel : Nat) : ∀ s sh c,
    sh = ⟨m, c, fl⟩ → (seqLook encSide fuel s sh).1 = (cachedEncoder m fuel s c).1 ∧
      (seqLook encSide fuel s sh).2 = ⟨m, (cachedEncoder m fuel s c).2, fl⟩ := by
  induction fuel with
  | zero => rintro s sh c rfl; exact ⟨rfl, rfl⟩
  | succ fuel ih =>
    rintro s sh c rfl
    unfold seqLook cachedEncoder
    simp only
    cases hk : c.lookup s with
    | some e => exact ⟨rfl, rfl⟩
    | none =>
      simp only
      have hs : encSide.str s = s := rfl
      rw [hs]
      cases hm : m.getRegistration s with
      | error e => exact ⟨rfl, rfl⟩
      | ok g =>
        cases g with
        | obj e => exact ⟨rfl, rfl⟩
        | cls plan =>
          obtain ⟨h1, h2⟩ := execS_map (Rel := fun sh c => sh = ⟨m, c, fl⟩)
            (look := fun s => seqLook encSide fuel (encSide.nested s)) (look' := cachedEncoder m fuel)
            (fun s st st' h => ih s st st' h) (plan s) ⟨m, c, fl⟩ c rfl
          simp only
          generalize Plan.execS (fun s => seqLook encSide fuel (encSide.nested s)) (plan s) ⟨m, c, fl⟩ = x
            at h1 h2 ⊢
          generalize Plan.execS (cachedEncoder m fuel) (plan s) c = y at h1 h2 ⊢
          obtain ⟨r, a⟩ := x
          obtain ⟨r', b⟩ := y
          simp only at h1 h2
          subst h1; subst h2
          cases r with
          | ok c => exact ⟨rfl, rfl⟩
          | error e => exact ⟨rfl, rfl⟩

theorem seqLook_dec (m : Mapping (Reg Decoder)) (fuel : Nat) : ∀ k sh c,
    sh = ⟨m, c.1, c.2⟩ → (seqLook decSide fuel k sh).1 = (cachedDecoder m fuel k.1 k.2 c).1 ∧
      (seqLook decSide fuel k sh).2 = ⟨m, (cachedDecoder m fuel k.1 k.2 c).2.1,
        (cachedDecoder m fuel k.1 k.2 c).2.2⟩ := by
  induction fuel with
  | zero => rintro k sh c rfl; exact ⟨rfl, rfl⟩
  | succ fuel ih =>
    rintro ⟨s, arg⟩ sh ⟨c, fl⟩ rfl
    unfold seqLook cachedDecoder
    simp only
    cases hk : c.lookup (s, arg) with
    | some e => exact ⟨rfl, rfl⟩
    | none =>
      simp only
      have hs : decSide.str (s, arg) = s := rfl
      rw [hs]
      cases hm : m.getRegistration s with
      | error e => exact ⟨rfl, rfl⟩
      | ok g =>
        cases g with
        | obj e => exact ⟨rfl, rfl⟩
        | cls plan =>
          obtain ⟨h1, h2⟩ := execS_map (Rel := fun sh (c : DecCache × Flags) => sh = ⟨m, c.1, c.2⟩)
            (look := fun s => seqLook decSide fuel (decSide.nested s))
            (look' := fun s' => cachedDecoder m fuel s' .absent)
            (fun s st st' h => ih (s, .absent) st st' h) (plan s) ⟨m, c, fl⟩ (c, fl) rfl
          simp only
          generalize Plan.execS (fun s => seqLook decSide fuel (decSide.nested s)) (plan s) ⟨m, c, fl⟩ = x
            at h1 h2 ⊢
          generalize Plan.execS (fun s' => cachedDecoder m fuel s' .absent) (plan s) (c, fl) = y at h1 h2 ⊢
          obtain ⟨r, a⟩ := x
          obtain ⟨r', b, fl'⟩ := y
          simp only at h1 h2
          subst h1; subst h2
          cases r with
          | ok c => exact ⟨rfl, rfl⟩
          | error e => exact ⟨rfl, rfl⟩

/-- A thread in a lookup that is given enough steps finishes it. -/
theorem run_prog (S : Side K C) (p : Prog K C) : ∀ (sh : Shared K C) (ts : List (Thread K C)) (i : Nat)
    (t : Thread K C) (fuel : Nat) (k : K), ts[i]? = some t → t.phase = .looking fuel k p →
    ∃ n, (System.mk sh ts).run S (List.replicate n i) = ⟨(execProg sh p).2, ts.set i
      { t with phase := .idle, log := .found fuel k (execProg sh p).1 :: t.log }⟩ := by
  have hone : ∀ (q : Prog K C) sh (ts : List (Thread K C)) i (t : Thread K C) fuel k, ts[i]? = some t →
      t.phase = .looking fuel k q → (∀ r, q ≠ .ret r) → (System.mk sh ts).step S i =
        ⟨(q.step sh).1, ts.set i { t with phase := .looking fuel k (q.step sh).2 }⟩ := by
    intro q sh ts i t fuel k ht hp hq
    have : (System.mk sh ts).step S i = ⟨(t.step S sh).1, ts.set i (t.step S sh).2⟩ := by
      unfold System.step
      simp only [ht]
    rw [this]
    unfold Thread.step
    rw [hp]
    cases q with
    | ret r => exact absurd rfl (hq r)
    | cacheGet k' next => rfl
    | find s next => rfl
    | setStrict f next => rfl
    | cachePut k' c next => rfl
  have hgo : ∀ (q : Prog K C) (hq : ∀ r, q ≠ .ret r) sh (ts : List (Thread K C)) i (t : Thread K C) fuel k,
      ts[i]? = some t → t.phase = .looking fuel k q →
      (execProg sh q = execProg (q.step sh).1 (q.step sh).2) →
      (∀ sh (ts : List (Thread K C)) (i : Nat) (t' : Thread K C) (fuel : Nat) (k : K), ts[i]? = some t' →
        t'.phase = .looking fuel k (q.step sh).2 →
        ∃ n, (System.mk (q.step sh).1 ts).run S (List.replicate n i) = ⟨(execProg (q.step sh).1 (q.step sh).2).2,
          ts.set i { t' with phase := .idle, log := .found fuel k (execProg (q.step sh).1 (q.step sh).2).1 :: t'.log }⟩) →
      ∃ n, (System.mk sh ts).run S (List.replicate n i) = ⟨(execProg sh q).2, ts.set i
        { t with phase := .idle, log := .found fuel k (execProg sh q).1 :: t.log }⟩ := by
    intro q hq sh ts i t fuel k ht hp he ih
    obtain ⟨n, hn⟩ := ih sh (ts.set i { t with phase := .looking fuel k (q.step sh).2 }) i _ fuel k
      (set_get ht) rfl
    refine ⟨n + 1, ?_⟩
    rw [List.replicate_succ]
    show ((System.mk sh ts).step S i).run S _ = _
    rw [hone q sh ts i t fuel k ht hp hq, hn, he, List.set_set]
  induction p with
  | ret r =>
    intro sh ts i t fuel k ht hp
    refine ⟨1, ?_⟩
    show (System.mk sh ts).step S i = _
    have : (System.mk sh ts).step S i = ⟨(t.step S sh).1, ts.set i (t.step S sh).2⟩ := by
      unfold System.step
      simp only [ht]
    rw [this]
    unfold Thread.step
    rw [hp]
    rfl
  | cacheGet k' next ih =>
    intro sh ts i t fuel k ht hp
    exact hgo (.cacheGet k' next) (by simp) sh ts i t fuel k ht hp rfl
      fun sh ts i t fuel k ht hp => ih _ sh ts i t fuel k ht hp
  | find s next ih =>
    intro sh ts i t fuel k ht hp
    exact hgo (.find s next) (by simp) sh ts i t fuel k ht hp rfl
      fun sh ts i t fuel k ht hp => ih _ sh ts i t fuel k ht hp
  | setStrict f next ih =>
    intro sh ts i t fuel k ht hp
    exact hgo (.setStrict f next) (by simp) sh ts i t fuel k ht hp rfl
      fun sh ts i t fuel k ht hp => ih _ ts i t fuel k ht hp
  | cachePut k' c next ih =>
    intro sh ts i t fuel k ht hp
    exact hgo (.cachePut k' c next) (by simp) sh ts i t fuel k ht hp rfl
      fun sh ts i t fuel k ht hp => ih _ ts i t fuel k ht hp

/-- A thread makes a whole lookup. -/
theorem run_lookup (S : Side K C) (sh : Shared K C) (ts : List (Thread K C)) (i : Nat) (t : Thread K C)
    (fuel : Nat) (k : K) (rest : List (Call K C)) (ht : ts[i]? = some t) (hp : t.phase = .idle)
    (hd : t.todo = .lookup fuel k :: rest) :
    ∃ n, (System.mk sh ts).run S (List.replicate n i) = ⟨(seqLook S fuel k sh).2, ts.set i
      ⟨rest, .idle, .found fuel k (seqLook S fuel k sh).1 :: t.log⟩⟩ := by
  have h0 : (System.mk sh ts).step S i =
      ⟨sh, ts.set i { t with todo := rest, phase := .looking fuel k (lookProg S fuel k .ret) }⟩ := by
    unfold System.step
    simp only [ht]
    unfold Thread.step
    rw [hp, hd]
  obtain ⟨n, hn⟩ := run_prog S (lookProg S fuel k .ret) sh
    (ts.set i { t with todo := rest, phase := .looking fuel k (lookProg S fuel k .ret) }) i _ fuel k
    (set_get ht) rfl
  refine ⟨n + 1, ?_⟩
  rw [List.replicate_succ]
  show ((System.mk sh ts).step S i).run S _ = _
  rw [h0, hn, execProg_look, List.set_set]
  rfl

theorem fine_exec {E : K → C → Prop} {F : TypeStr → PyM (Reg C) → Prop} {Q : PyM C → Prop} (p : Prog K C) :
    ∀ sh : Shared K C, (∀ k c, sh.cache.lookup k = some c → E k c) →
    (∀ s, F s (sh.regs.getRegistration s)) → Fine E F Q p →
    Q (execProg sh p).1 ∧ (execProg sh p).2.regs = sh.regs := by
  have hgo : ∀ (q : Prog K C) sh, (∀ k c, sh.cache.lookup k = some c → E k c) →
      (∀ s, F s (sh.regs.getRegistration s)) → Fine E F Q q →
      execProg sh q = execProg (q.step sh).1 (q.step sh).2 →
      (∀ sh : Shared K C, (∀ k c, (q.step sh).1.cache.lookup k = some c → E k c) →
        (∀ s, F s ((q.step sh).1.regs.getRegistration s)) → Fine E F Q (q.step sh).2 →
        Q (execProg (q.step sh).1 (q.step sh).2).1 ∧
          (execProg (q.step sh).1 (q.step sh).2).2.regs = (q.step sh).1.regs) →
      Q (execProg sh q).1 ∧ (execProg sh q).2.regs = sh.regs := by
    intro q sh hE hF hq he ih
    obtain ⟨g1, g2, g3⟩ := fine_step hE hF hq
    obtain ⟨i1, i2⟩ := ih sh g2 (by rw [g3]; exact hF) g1
    rw [he]
    exact ⟨i1, i2.trans g3⟩
  induction p with
  | ret r => intro sh _ _ h; exact ⟨h, rfl⟩
  | cacheGet k next ih =>
    intro sh hE hF h
    exact hgo (.cacheGet k next) sh hE hF h rfl fun sh => ih _ _
  | find s next ih =>
    intro sh hE hF h
    exact hgo (.find s next) sh hE hF h rfl fun sh => ih _ _
  | setStrict f next ih =>
    intro sh hE hF h
    exact hgo (.setStrict f next) sh hE hF h rfl fun sh => ih _
  | cachePut k c next ih =>
    intro sh hE hF h
    exact hgo (.cachePut k c next) sh hE hF h rfl fun sh => ih _

theorem seqLook_fresh {S : Side K C} {m : Mapping (Reg C)} {fl : Flags} {fuel : Nat} {k : K} {c : C}
    (h : uncached S m fuel k = .ok c) : (seqLook S fuel k ⟨m, [], fl⟩).1 = .ok c ∧
      ∃ rest fl', (seqLook S fuel k ⟨m, [], fl⟩).2 = ⟨m, (k, c) :: rest, fl'⟩ := by
  have h0 := execProg_look S fuel k ⟨m, [], fl⟩ .ret
  obtain ⟨h1, h2⟩ := fine_exec (E := FreshAt S m) (F := fun s r => r = m.getRegistration s)
    (Q := Right (fun f => uncached S m f k) fuel) (lookProg S fuel k .ret) ⟨m, [], fl⟩
    (fun k c h => by cases h) (fun s => rfl) (lookProg_fine S m _ fuel k _ fun r hr => hr)
  rw [h0] at h1 h2
  have hr : (seqLook S fuel k ⟨m, [], fl⟩).1 = .ok c := by
    have := h1.2 (by show uncached S m fuel k ≠ _; rw [h]; simp)
    exact this.trans h
  have hm : (seqLook S fuel k ⟨m, [], fl⟩).2.regs = m := h2
  refine ⟨hr, ?_⟩
  cases fuel with
  | zero => cases h
  | succ fuel =>
    unfold seqLook at hr hm ⊢
    simp only [List.lookup] at hr hm ⊢
    cases hg : m.getRegistration (S.str k) with
    | error e => rw [hg] at hr; cases hr
    | ok g =>
      rw [hg] at hr hm
      cases g with
      | obj c' =>
        simp only at hr hm ⊢
        injection hr with hr
        exact ⟨[], S.write k c' fl, by rw [hr]⟩
      | cls plan =>
        simp only at hr hm ⊢
        generalize Plan.execS (fun s => seqLook S fuel (S.nested s)) (plan (S.str k)) ⟨m, [], fl⟩ = x
          at hr hm ⊢
        obtain ⟨r, sh'⟩ := x
        cases r with
        | error e => cases hr
        | ok c' =>
          simp only at hr hm ⊢
          injection hr with hr
          refine ⟨sh'.cache, S.write k c' sh'.flags, ?_⟩
          rw [hr, hm]

theorem step_clear (S : Side K C) (sh : Shared K C) (ts : List (Thread K C)) (i : Nat) (t : Thread K C)
    (op : Call K C) (rest : List (Call K C)) (hop : IsChange op) (ht : ts[i]? = some t)
    (hp : t.phase = .idle) (hd : t.todo = op :: rest) :
    (System.mk sh ts).step S i =
      ⟨{ sh with cache := [] }, ts.set i { t with todo := rest, phase := .cleared op }⟩ := by
  unfold System.step
  simp only [ht]
  unfold Thread.step
  rw [hp, hd]
  cases op with
  | lookup fuel k => exact absurd rfl (hop fuel k)
  | register l v label => rfl
  | unregister l => rfl

theorem step_change (S : Side K C) (sh : Shared K C) (ts : List (Thread K C)) (i : Nat) (t : Thread K C)
    (op : Call K C) (ht : ts[i]? = some t) (hp : t.phase = .cleared op) :
    (System.mk sh ts).step S i = ⟨{ sh with regs := (op.change sh.regs).2 },
      ts.set i { t with phase := .idle, log := .changed (op.change sh.regs).1 :: t.log }⟩ := by
  unfold System.step
  simp only [ht]
  unfold Thread.step
  rw [hp]

/-- A lookup between the clearing of the cache and the change makes later lookups stale. -/
theorem stale (S : Side K C) (m : Mapping (Reg C)) (fl : Flags) (k : K) (c : C) (fuel : Nat)
    (h : uncached S m fuel k = .ok c) (op : Call K C) (hop : IsChange op) :
    ∃ sched sched' : List Nat,
      let s : System K C := ⟨⟨m, [], fl⟩, [⟨[op], .idle, []⟩, ⟨[.lookup fuel k], .idle, []⟩,
        ⟨[.lookup fuel k], .idle, []⟩]⟩
      (s.run S sched).shared.regs = (op.change m).2 ∧
      (s.run S sched).threads = [⟨[], .idle, [.changed (op.change m).1]⟩,
        ⟨[], .idle, [.found fuel k (.ok c)]⟩, ⟨[.lookup fuel k], .idle, []⟩] ∧
      ((s.run S sched).run S sched').threads[2]? = some ⟨[], .idle, [.found fuel k (.ok c)]⟩ := by
  obtain ⟨h1, rest, fl', h2⟩ := seqLook_fresh (fl := fl) h
  obtain ⟨n, hn⟩ := run_lookup S ⟨m, [], fl⟩ [⟨[], .cleared op, []⟩, ⟨[.lookup fuel k], .idle, []⟩,
    ⟨[.lookup fuel k], .idle, []⟩] 1 _ fuel k [] rfl rfl rfl
  rw [h1, h2] at hn
  obtain ⟨fuel, rfl⟩ : ∃ f, fuel = f + 1 := by
    cases fuel with
    | zero => cases h
    | succ f => exact ⟨f, rfl⟩
  obtain ⟨n', hn'⟩ := run_lookup S ⟨(op.change m).2, (k, c) :: rest, fl'⟩
    [⟨[], .idle, [.changed (op.change m).1]⟩, ⟨[], .idle, [.found (fuel + 1) k (.ok c)]⟩,
      ⟨[.lookup (fuel + 1) k], .idle, []⟩] 2 _ (fuel + 1) k [] rfl rfl rfl
  have hhit : (seqLook S (fuel + 1) k ⟨(op.change m).2, (k, c) :: rest, fl'⟩).1 = .ok c := by
    unfold seqLook
    simp only [List.lookup_cons, beq_self_eq_true]
  have hall : (System.mk ⟨m, [], fl⟩ [⟨[op], .idle, []⟩, ⟨[.lookup (fuel + 1) k], .idle, []⟩,
      ⟨[.lookup (fuel + 1) k], .idle, []⟩]).run S (0 :: (List.replicate n 1 ++ [0])) =
      ⟨⟨(op.change m).2, (k, c) :: rest, fl'⟩, [⟨[], .idle, [.changed (op.change m).1]⟩,
        ⟨[], .idle, [.found (fuel + 1) k (.ok c)]⟩, ⟨[.lookup (fuel + 1) k], .idle, []⟩]⟩ := by
    show ((System.mk _ _).step S 0).run S _ = _
    rw [step_clear S _ _ 0 _ op [] hop rfl rfl rfl, run_append]
    have : List.set [(⟨[op], .idle, []⟩ : Thread K C), ⟨[.lookup (fuel + 1) k], .idle, []⟩,
      ⟨[.lookup (fuel + 1) k], .idle, []⟩] 0 ⟨[], .cleared op, []⟩ = [⟨[], .cleared op, []⟩,
      ⟨[.lookup (fuel + 1) k], .idle, []⟩, ⟨[.lookup (fuel + 1) k], .idle, []⟩] := rfl
    simp only at hn ⊢
    rw [this, hn]
    rw [show ∀ x : System K C, x.run S [0] = x.step S 0 from fun _ => rfl,
      step_change S _ _ 0 ⟨[], .cleared op, []⟩ op rfl rfl]
    rfl
  refine ⟨0 :: (List.replicate n 1 ++ [0]), List.replicate n' 2, ?_, ?_, ?_⟩
  · rw [hall]
  · rw [hall]
  · rw [hall, hn', hhit]
    rfl

theorem quiet_inv {S : Side K C} {c : System K C} (hq : Quiet c)
    (hc : ∀ k v, c.shared.cache.lookup k = some v → FreshAt S c.shared.regs k v) : Inv S c := by
  refine ⟨hc, fun i t op ht hp => ?_, fun i t fuel k p ht hp => ?_⟩
  · rw [hq t (List.mem_of_getElem? ht)] at hp; cases hp
  · rw [hq t (List.mem_of_getElem? ht)] at hp; cases hp

/-- If changes are exclusive, lookups are right. -/
theorem exclusive_right {S : Side K C} {c : System K C} (h : Inv S c) (sched : List Nat)
    (hx : ∀ pre, pre <+: sched → Exclusive (c.run S pre)) {i fuel : Nat} {k : K} {r : PyM C}
    (hr : Returns S (c.run S sched) i fuel k r) :
    Right (fun f => uncached S (c.run S sched).shared.regs f k) fuel r := by
  obtain ⟨t, ht, hp⟩ := returns_phase hr
  exact (inv_run h sched hx).look i t fuel k _ ht hp

/-- A change that is made while no other call is running empties the cache. -/
theorem quiet_change {S : Side K C} {c : System K C} (hq : Quiet c) {i : Nat} {t : Thread K C}
    {op : Call K C} {rest : List (Call K C)} (ht : c.threads[i]? = some t) (hd : t.todo = op :: rest)
    (hop : IsChange op) : Quiet (c.run S [i, i]) ∧ (c.run S [i, i]).shared.cache = [] ∧
      (c.run S [i, i]).shared.regs = (op.change c.shared.regs).2 := by
  obtain ⟨sh, ts⟩ := c
  have hp := hq t (List.mem_of_getElem? ht)
  have : (System.mk sh ts).run S [i, i] = ⟨⟨(op.change sh.regs).2, [], sh.flags⟩, ts.set i
      ⟨rest, .idle, .changed (op.change sh.regs).1 :: t.log⟩⟩ := by
    show ((System.mk sh ts).step S i).step S i = _
    rw [step_clear S sh ts i t op rest hop ht hp hd, step_change S _ _ i _ op (set_get ht) rfl, List.set_set]
  rw [this]
  refine ⟨fun u hu => ?_, rfl, rfl⟩
  rcases List.mem_or_eq_of_mem_set hu with hu | rfl
  · exact hq u hu
  · rfl

end EthAbi.Conc
