import Verif.Lemmas.ThreadChanges
import Verif.Lemmas.Registered

/-! # Threads: what holds at every point of a schedule -/
namespace EthAbi.Thr
open Spec Spec.Thr

variable [Ext]

/-- The thread is in no call, in a call on another object, or in a lookup on object `r`. -/
def Looking (r : Nat) (g : Registry) (se sd : Nat) (t : Thread) : Prop :=
  ∀ call p, t.now = some (call, p) → (target call.2 ≠ some r ∧ Away r p) ∨
    (target call.2 = some r ∧ changes call.2 ≠ some r ∧
      Good (Holds r g se sd) (Determined g call.1 call.2) p)

/-- The thread is in no call, or in a call on another object. -/
def Elsewhere (r : Nat) (t : Thread) : Prop :=
  ∀ call p, t.now = some (call, p) → target call.2 ≠ some r ∧ Away r p

/-- No thread is changing object `r`, whose registrations are `g`. -/
def Calm (r : Nat) (g : Registry) (c : System) : Prop :=
  ∃ se sd, Holds r g se sd c.heap ∧ ∀ t ∈ c.threads, Looking r g se sd t

/-- Thread `i` is changing object `r`, whose registrations were `g` before. -/
def Changing (r : Nat) (g : Registry) (c : System) (i : Nat) : Prop :=
  ∃ t call p h0, c.threads[i]? = some t ∧ t.now = some (call, p) ∧ changes call.2 = some r ∧
    Local r p ∧ Sh r c.heap ∧ Sh r h0 ∧ (h0.world.view r).reg = g ∧ (h0.world.view r).Good ∧
    (p.exec c.heap).1 = ((program call.1 call.2).exec h0).1 ∧
    (p.exec c.heap).2.world.view r = ((program call.1 call.2).exec h0).2.world.view r ∧
    ∀ j t', j ≠ i → c.threads[j]? = some t' → Elsewhere r t'

/-- What holds at every point. -/
def Always (r : Nat) (g : Registry) (c : System) : Prop := Calm r g c ∨ ∃ i, Changing r g c i

/-- The call that returns when thread `i` makes a step, if any. -/
def event (c : System) (i : Nat) : List ((Nat × Op) × Res) :=
  match c.threads[i]? with
  | some ⟨_, some (call, .ret r), _⟩ => [(call, r)]
  | _ => []

theorem returned_cons (c : System) (i : Nat) (sched : List Nat) :
    returned c (i :: sched) = event c i ++ returned (c.step i) sched := rfl

theorem step_none {c : System} {i : Nat} (h : c.threads[i]? = none) : c.step i = c := by
  unfold System.step; rw [h]

theorem step_some {c : System} {i : Nat} {t : Thread} (h : c.threads[i]? = some t) :
    c.step i = ⟨(t.step c.heap).1, c.threads.set i (t.step c.heap).2⟩ := by
  unfold System.step; rw [h]

theorem set_self {α : Type} {l : List α} {i : Nat} {x : α} (h : l[i]? = some x) (y : α) :
    (l.set i y)[i]? = some y := by
  obtain ⟨hi, _⟩ := List.getElem?_eq_some_iff.1 h
  simp [hi]

theorem set_other {α : Type} {l : List α} {i j : Nat} (hij : j ≠ i) (y : α) :
    (l.set i y)[j]? = l[j]? := by
  rw [List.getElem?_set_ne (Ne.symm hij)]

theorem effect_id {op : Op} (h : changes op = none) (g : Registry) : effect op g = g := by
  cases op <;> first | rfl | cases h

theorem changes_target {op : Op} {r : Nat} (h : changes op = some r) : target op = some r := by
  cases op <;> first | exact h | cases h

theorem lookup_changes {op : Op} {r : Nat} (h : target op = some r) (h' : changes op ≠ some r) :
    changes op = none := by
  cases op <;> first | rfl | exact absurd h h'

theorem away_or_not (r : Nat) (fuel : Nat) (op : Op) : (target op ≠ some r ∧ Away r (program fuel op)) ∨
    target op = some r := by
  by_cases h : target op = some r
  · exact .inr h
  · exact .inl ⟨h, away_program fuel op h⟩

/-- `c'` is `c` after a step of thread `i`, in which the thread became `t'` and the heap `h'`. -/
theorem calm_set {r : Nat} {g : Registry} {se sd : Nat} {c : System} {i : Nat} {h' : Heap} {t' : Thread}
    (hh : Holds r g se sd h') (hts : ∀ t ∈ c.threads, Looking r g se sd t)
    (ht' : Looking r g se sd t') : Calm r g ⟨h', c.threads.set i t'⟩ := by
  refine ⟨se, sd, hh, fun t ht => ?_⟩
  rcases List.mem_or_eq_of_mem_set ht with h | h
  · exact hts t h
  · subst h; exact ht'

theorem looking_none {r : Nat} {g : Registry} {se sd : Nat} {t : Thread} (h : t.now = none) :
    Looking r g se sd t := fun call p hp => by rw [h] at hp; cases hp

theorem step_calm {r : Nat} {g : Registry} {c : System} {i : Nat} (hc : Calm r g c)
    (hex : Exclusive r (c.step i)) :
    Always r (after g (((event c i).filter fun x => target x.1.2 = some r).map (·.1))) (c.step i) ∧
      ∀ x ∈ event c i, target x.1.2 = some r → Determined g x.1.1 x.1.2 x.2 := by
  obtain ⟨se, sd, hh, hts⟩ := hc
  cases hi : c.threads[i]? with
  | none =>
    rw [step_none hi]
    unfold event
    rw [hi]
    exact ⟨.inl ⟨se, sd, hh, hts⟩, fun x hx => by cases hx⟩
  | some t =>
    have ht : t ∈ c.threads := List.mem_of_getElem? hi
    rw [step_some hi] at hex ⊢
    obtain ⟨todo, now, log⟩ := t
    cases now with
    | none =>
      have hev : event c i = [] := by unfold event; rw [hi]
      rw [hev]
      refine ⟨?_, fun x hx => by cases hx⟩
      show Always r g _
      cases todo with
      | nil => exact .inl (calm_set hh hts (looking_none rfl))
      | cons call rest =>
        have hstep : Thread.step c.heap ⟨call :: rest, none, log⟩ =
          (c.heap, ⟨rest, some (call, program call.1 call.2), log⟩) := rfl
        rw [hstep] at hex ⊢
        rcases away_or_not r call.1 call.2 with ha | hr
        · refine .inl (calm_set hh hts fun call' p hp => ?_)
          injection hp with hp
          injection hp with h1 h2
          subst h1; subst h2
          exact .inl ha
        · by_cases hch : changes call.2 = some r
          · refine .inr ⟨i, ⟨rest, some (call, program call.1 call.2), log⟩, call,
              program call.1 call.2, c.heap, set_self hi _, rfl, hch,
              local_program call.1 call.2 hch, hh.sh, hh.sh, hh.reg, hh.good, rfl, rfl, ?_⟩
            intro j t' hj ht' call' p' hp'
            have := hex i j _ t' call call' _ p' (set_self hi _) ht' (Ne.symm hj) rfl hp' hch
            refine ⟨this, ?_⟩
            rw [set_other hj] at ht'
            rcases hts t' (List.mem_of_getElem? ht') call' p' hp' with h | h
            · exact h.2
            · exact absurd h.1 this
          · refine .inl (calm_set hh hts fun call' p hp => ?_)
            injection hp with hp
            injection hp with h1 h2
            subst h1; subst h2
            exact .inr ⟨hr, hch, good_program call.1 call.2 hr hch⟩
    | some cp =>
      obtain ⟨call, p⟩ := cp
      have hl := hts _ ht call p rfl
      cases p with
      | ret res =>
        have hev : event c i = [(call, res)] := by unfold event; rw [hi]
        rw [hev]
        have hstep : Thread.step c.heap ⟨todo, some (call, .ret res), log⟩ =
          (c.heap, ⟨todo, none, (call, res) :: log⟩) := rfl
        rw [hstep] at hex ⊢
        have hgen : after g ((([(call, res)] : List ((Nat × Op) × Res)).filter
            fun x => target x.1.2 = some r).map (·.1)) = g := by
          rcases hl with ⟨hn, _⟩ | ⟨ht, hn, _⟩
          · rw [List.filter_cons_of_neg (by simpa using hn)]; rfl
          · rw [List.filter_cons_of_pos (by simpa using ht)]
            exact effect_id (lookup_changes ht hn) g
        rw [hgen]
        refine ⟨.inl (calm_set hh hts (looking_none rfl)), fun x hx hx' => ?_⟩
        rw [List.mem_singleton] at hx
        subst hx
        rcases hl with ⟨hn, _⟩ | ⟨_, _, hg⟩
        · exact absurd hx' hn
        · exact hg
      | act f next =>
        have hev : event c i = [] := by unfold event; rw [hi]
        rw [hev]
        refine ⟨?_, fun x hx => by cases hx⟩
        have hstep : Thread.step c.heap ⟨todo, some (call, .act f next), log⟩ =
          (f c.heap, ⟨todo, some (call, next c.heap), log⟩) := rfl
        rw [hstep] at hex ⊢
        rcases hl with ⟨hn, ha⟩ | ⟨ht, hn, hg⟩
        · obtain ⟨h1, h2⟩ := ha c.heap hh.sh
          refine .inl (calm_set (hh.same h1) hts fun call' p hp => ?_)
          injection hp with hp
          injection hp with e1 e2
          subst e1; subst e2
          exact .inl ⟨hn, h2⟩
        · obtain ⟨h1, h2⟩ := hg c.heap hh
          refine .inl (calm_set h1 hts fun call' p hp => ?_)
          injection hp with hp
          injection hp with e1 e2
          subst e1; subst e2
          exact .inr ⟨ht, hn, h2⟩

theorem elsewhere_none {r : Nat} {t : Thread} (h : t.now = none) : Elsewhere r t :=
  fun call p hp => by rw [h] at hp; cases hp

theorem step_changing {r : Nat} {g : Registry} {c : System} {i k : Nat} (hc : Changing r g c k)
    (hex : Exclusive r (c.step i)) :
    Always r (after g (((event c i).filter fun x => target x.1.2 = some r).map (·.1))) (c.step i) ∧
      ∀ x ∈ event c i, target x.1.2 = some r → Determined g x.1.1 x.1.2 x.2 := by
  obtain ⟨tk, ck, pk, h0, hk, hnow, hch, hloc, hs, hs0, hreg, hgood, hres, hview, hothers⟩ := hc
  by_cases hik : i = k
  · subst hik
    rw [step_some hk] at hex ⊢
    obtain ⟨todo, now, log⟩ := tk
    simp only at hnow
    subst hnow
    cases pk with
    | ret res =>
      have hev : event c i = [(ck, res)] := by unfold event; rw [hk]
      have htg := changes_target hch
      rw [hev, List.filter_cons_of_pos (by simpa using htg)]
      obtain ⟨hd, heff, hgd⟩ := change_alone ck.1 ck.2 hch hs0 hgood
      have hstep : Thread.step c.heap ⟨todo, some (ck, .ret res), log⟩ =
        (c.heap, ⟨todo, none, (ck, res) :: log⟩) := rfl
      rw [hstep] at hex ⊢
      have hview' : c.heap.world.view r = _ := hview
      have hres' : res = _ := hres
      refine ⟨.inl ⟨c.heap.stamps (6 * r), c.heap.stamps (6 * r + 2),
        ⟨hs, ?_, ?_, rfl, rfl⟩, fun t ht => ?_⟩, fun x hx _ => ?_⟩
      · rw [hview', heff, hreg]; rfl
      · rw [hview']; exact hgd
      · obtain ⟨j, hj⟩ := List.mem_iff_getElem?.1 ht
        by_cases hji : j = i
        · subst hji
          rw [set_self hk] at hj
          injection hj with hj
          subst hj
          exact looking_none rfl
        · rw [set_other hji] at hj
          exact fun call p hp => .inl (hothers j t hji hj call p hp)
      · rw [List.mem_singleton] at hx
        subst hx
        rw [hreg] at hd
        rw [hres']; exact hd
    | act f next =>
      have hev : event c i = [] := by unfold event; rw [hk]
      rw [hev]
      refine ⟨.inr ⟨i, ⟨todo, some (ck, next c.heap), log⟩, ck, next c.heap, h0, set_self hk _, rfl, hch,
        hloc.2.2 _ hs, hloc.1 _ hs, hs0, hreg, hgood, hres, hview, ?_⟩, fun x hx => by cases hx⟩
      intro j t' hj ht'
      rw [set_other hj] at ht'
      exact hothers j t' hj ht'
  · cases hi : c.threads[i]? with
    | none =>
      rw [step_none hi]
      unfold event
      rw [hi]
      exact ⟨.inr ⟨k, tk, ck, pk, h0, hk, hnow, hch, hloc, hs, hs0, hreg, hgood, hres, hview, hothers⟩,
        fun x hx => by cases hx⟩
    | some t =>
      rw [step_some hi] at hex ⊢
      have hel := hothers i t hik hi
      have hki : k ≠ i := Ne.symm hik
      -- the heap of thread `i`'s step is the same at object `r`
      have finish : ∀ (h' : Heap) (t' : Thread), Same r c.heap h' →
          Elsewhere r t' → Changing r g ⟨h', c.threads.set i t'⟩ k := by
        intro h' t' hsame ht'
        obtain ⟨e1, e2⟩ := local_exec pk hloc h' c.heap hsame.sh hs hsame.view
        refine ⟨tk, ck, pk, h0, ?_, hnow, hch, hloc, hsame.sh, hs0, hreg, hgood, e1.trans hres,
          e2.trans hview, ?_⟩
        · rw [set_other hki]; exact hk
        · intro j tj hj htj
          by_cases hji : j = i
          · subst hji
            rw [set_self hi] at htj
            injection htj with htj
            subst htj
            exact ht'
          · rw [set_other hji] at htj
            exact hothers j tj hj htj
      obtain ⟨todo, now, log⟩ := t
      cases now with
      | none =>
        have hev : event c i = [] := by unfold event; rw [hi]
        rw [hev]
        refine ⟨.inr ⟨k, ?_⟩, fun x hx => by cases hx⟩
        cases todo with
        | nil => exact finish c.heap _ (Same.refl hs) (elsewhere_none rfl)
        | cons call rest =>
          refine finish c.heap ⟨rest, some (call, program call.1 call.2), log⟩ (Same.refl hs) ?_
          intro call' p hp
          injection hp with hp
          injection hp with e1 e2
          subst e1; subst e2
          have : target call.2 ≠ some r := by
            refine hex k i tk ⟨rest, some (call, program call.1 call.2), log⟩ ck call pk _ ?_
              (set_self hi _) hki hnow rfl hch
            rw [set_other hki]; exact hk
          exact ⟨this, away_program call.1 call.2 this⟩
      | some cp =>
        obtain ⟨call, p⟩ := cp
        obtain ⟨hn, ha⟩ := hel call p rfl
        cases p with
        | ret res =>
          have hev : event c i = [(call, res)] := by unfold event; rw [hi]
          rw [hev, List.filter_cons_of_neg (by simpa using hn)]
          refine ⟨.inr ⟨k, finish c.heap _ (Same.refl hs) (elsewhere_none rfl)⟩, fun x hx hx' => ?_⟩
          rw [List.mem_singleton] at hx
          subst hx
          exact absurd hx' hn
        | act f next =>
          have hev : event c i = [] := by unfold event; rw [hi]
          rw [hev]
          refine ⟨.inr ⟨k, ?_⟩, fun x hx => by cases hx⟩
          obtain ⟨h1, h2⟩ := ha c.heap hs
          refine finish (f c.heap) ⟨todo, some (call, next c.heap), log⟩ h1 fun call' p hp => ?_
          injection hp with hp
          injection hp with e1 e2
          subst e1; subst e2
          exact ⟨hn, h2⟩

theorem step_always {r : Nat} {g : Registry} {c : System} {i : Nat} (hc : Always r g c)
    (hex : Exclusive r (c.step i)) :
    Always r (after g (((event c i).filter fun x => target x.1.2 = some r).map (·.1))) (c.step i) ∧
      ∀ x ∈ event c i, target x.1.2 = some r → Determined g x.1.1 x.1.2 x.2 := by
  rcases hc with hc | ⟨k, hc⟩
  · exact step_calm hc hex
  · exact step_changing hc hex

theorem after_append (g : Registry) (a b : History) : after g (a ++ b) = after (after g a) b :=
  List.foldl_append

theorem event_length (c : System) (i : Nat) : event c i = [] ∨ ∃ x, event c i = [x] := by
  unfold event; split
  · exact .inr ⟨_, rfl⟩
  · exact .inl rfl

/-- Every call on `r` has the outcome that the registrations of `r` at that time determine. -/
theorem run_always {r : Nat} : ∀ (sched : List Nat) (g : Registry) (c : System), Always r g c →
    (∀ pre, pre <+: sched → Exclusive r (c.run pre)) →
    ∀ a x b, returnedOn r c sched = a ++ x :: b →
      Determined (after g (a.map (·.1))) x.1.1 x.1.2 x.2 := by
  intro sched
  induction sched with
  | nil => intro g c _ _ a x b h; cases a <;> cases h
  | cons i sched ih =>
    intro g c hc hex a x b h
    obtain ⟨h1, h2⟩ := step_always hc (hex [i] ⟨sched, rfl⟩)
    have ih := ih _ _ h1 fun pre hpre => hex (i :: pre) (by
      obtain ⟨t, ht⟩ := hpre
      exact ⟨t, by rw [← ht]; rfl⟩)
    unfold returnedOn at h ih
    rw [returned_cons, List.filter_append] at h
    rcases event_length c i with he | ⟨y, he⟩
    · rw [he] at h ih
      exact ih a x b h
    · rw [he] at h ih h2
      by_cases hy : target y.1.2 = some r
      · rw [List.filter_cons_of_pos (by simpa using hy)] at h ih
        cases a with
        | nil =>
          injection h with h h'
          subst h
          exact h2 y List.mem_cons_self hy
        | cons y' a =>
          injection h with h h'
          subst h
          exact ih a x b h'
      · rw [List.filter_cons_of_neg (by simpa using hy)] at h ih
        exact ih a x b h

/-- A system in which no thread is in a call, over a reachable heap. -/
theorem always_start {h : History} {r : Nat} {g : Registry} {c : System}
    (hw : c.heap.world = World.empty.run h) (hg : (Plain.run [] h)[r]? = some g) (hq : Quiet c) :
    Always r g c := by
  obtain ⟨hi, hlen, hreg⟩ := has_of hg
  rw [← hw] at hi hlen hreg
  exact .inl ⟨_, _, ⟨⟨hi.shape, hlen⟩, hreg, hi.good r hlen, rfl, rfl⟩, fun t ht =>
    looking_none (by have := hq t ht; rwa [Option.isNone_iff_eq_none] at this)⟩

/-! ## Systems in which nobody changes the registry -/

/-- No thread is in or will make a call that changes `r`. -/
def NoChange (r : Nat) (c : System) : Prop :=
  ∀ t ∈ c.threads, (∀ call ∈ t.todo, changes call.2 ≠ some r) ∧
    ∀ call p, t.now = some (call, p) → changes call.2 ≠ some r

theorem noChange_step {r : Nat} {c : System} (hc : NoChange r c) (i : Nat) : NoChange r (c.step i) := by
  cases hi : c.threads[i]? with
  | none => rw [step_none hi]; exact hc
  | some t =>
    rw [step_some hi]
    intro t' ht'
    rcases List.mem_or_eq_of_mem_set ht' with h | h
    · exact hc t' h
    · obtain ⟨h1, h2⟩ := hc t (List.mem_of_getElem? hi)
      subst h
      obtain ⟨todo, now, log⟩ := t
      cases now with
      | none =>
        cases todo with
        | nil => exact ⟨h1, h2⟩
        | cons call rest =>
          refine ⟨fun c' hc' => h1 c' (List.mem_cons_of_mem _ hc'), fun call' p hp => ?_⟩
          injection hp with hp
          injection hp with e1 e2
          subst e1
          exact h1 _ List.mem_cons_self
      | some cp =>
        obtain ⟨call, p⟩ := cp
        cases p with
        | ret res => exact ⟨h1, fun call' p hp => by cases hp⟩
        | act f next =>
          refine ⟨h1, fun call' p hp => ?_⟩
          injection hp with hp
          injection hp with e1 e2
          subst e1
          exact h2 call _ rfl

theorem noChange_run {r : Nat} (sched : List Nat) : ∀ {c : System}, NoChange r c →
    NoChange r (c.run sched) := by
  induction sched with
  | nil => intro c h; exact h
  | cons i sched ih => intro c h; exact ih (noChange_step h i)

omit [Ext] in
theorem noChange_exclusive {r : Nat} {c : System} (hc : NoChange r c) : Exclusive r c :=
  fun _ _ ti _ ci _ pi _ hi _ _ hni _ hch =>
    absurd hch ((hc ti (List.mem_of_getElem? hi)).2 ci pi hni)

theorem noChange_start {r : Nat} {c : System} (hq : Quiet c) (hl : LeavesAlone r c) : NoChange r c :=
  fun t ht => ⟨hl t ht, fun call p hp => by
    have := hq t ht
    rw [hp] at this
    cases this⟩

theorem event_noChange {r : Nat} {c : System} (hc : NoChange r c) {i : Nat} {x : (Nat × Op) × Res}
    (hx : x ∈ event c i) : changes x.1.2 ≠ some r := by
  unfold event at hx
  split at hx
  · rename_i todo call res log hi
    rw [List.mem_singleton] at hx
    subst hx
    exact (hc _ (List.mem_of_getElem? hi)).2 call _ rfl
  · cases hx

theorem returned_noChange {r : Nat} (sched : List Nat) : ∀ {c : System}, NoChange r c →
    ∀ x ∈ returned c sched, changes x.1.2 ≠ some r := by
  induction sched with
  | nil => intro c _ x hx; cases hx
  | cons i sched ih =>
    intro c hc x hx
    rw [returned_cons] at hx
    rcases List.mem_append.1 hx with h | h
    · exact event_noChange hc h
    · exact ih (noChange_step hc i) x h

theorem after_noChange {r : Nat} {g : Registry} (calls : History)
    (h : ∀ c ∈ calls, target c.2 = some r ∧ changes c.2 ≠ some r) : after g calls = g := by
  induction calls with
  | nil => rfl
  | cons c cs ih =>
    obtain ⟨h1, h2⟩ := h c List.mem_cons_self
    show after (effect c.2 g) cs = g
    rw [effect_id (lookup_changes h1 h2)]
    exact ih fun c' hc' => h c' (List.mem_cons_of_mem _ hc')

end EthAbi.Thr
