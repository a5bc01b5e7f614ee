import Verif.Lemmas.Messages
import Verif.Lemmas.Errors

/-! # What the texts tell -/
namespace EthAbi
open Spec

/-! ## Numbers and bytes can be read off -/

theorem digitChar_mod {n m : Nat} (h : digitChar n = digitChar m) : n % 10 = m % 10 := by
  have := congrArg Char.toNat h
  rw [digitChar_toNat, digitChar_toNat] at this
  omega

theorem natDigits_ne_nil (n : Nat) : natDigits n ≠ [] := by
  rw [natDigits_eq]
  split <;> simp

theorem natDigits_inj {n m : Nat} (h : natDigits n = natDigits m) : n = m := by
  induction n using Nat.strongRecOn generalizing m with
  | _ n ih =>
    by_cases hn : n < 10
    · by_cases hm : m < 10
      · rw [natDigits_small hn, natDigits_small hm] at h
        have := digitChar_mod (List.cons.inj h).1
        omega
      · rw [natDigits_small hn, natDigits_big (by omega)] at h
        have h1 := congrArg List.length h
        have h2 := List.length_pos_iff.2 (natDigits_ne_nil (m / 10))
        simp only [List.length_append, List.length_singleton] at h1
        omega
    · by_cases hm : m < 10
      · rw [natDigits_small hm, natDigits_big (by omega)] at h
        have h1 := congrArg List.length h
        have h2 := List.length_pos_iff.2 (natDigits_ne_nil (n / 10))
        simp only [List.length_append, List.length_singleton] at h1
        omega
      · rw [natDigits_big (n := n) (by omega), natDigits_big (n := m) (by omega)] at h
        have := List.append_inj' h rfl
        have h1 := ih (n / 10) (by omega) this.1
        have h2 := digitChar_mod (List.cons.inj this.2).1
        omega

theorem natDigits_dig (n : Nat) : ∀ c ∈ natDigits n, isDig c = true := by
  induction n using Nat.strongRecOn with
  | _ n ih =>
    intro c hc
    rw [natDigits_eq] at hc
    split at hc
    · simp only [List.mem_singleton] at hc; rw [hc]; exact digitChar_isDig n
    · rcases List.mem_append.1 hc with h | h
      · exact ih (n / 10) (by omega) c h
      · simp only [List.mem_singleton] at h; rw [h]; exact digitChar_isDig n

theorem space_notMem (n : Nat) : ' ' ∉ natDigits n := fun h => by
  have := natDigits_dig n _ h
  revert this
  decide

theorem split_space {u v r r' : List Char} (hu : ' ' ∉ u) (hv : ' ' ∉ v) (h : u ++ ' ' :: r = v ++ ' ' :: r') :
    u = v ∧ r = r' := by
  induction u generalizing v with
  | nil =>
    cases v with
    | nil => exact ⟨rfl, (List.cons.inj h).2⟩
    | cons c v => exact absurd (by rw [(List.cons.inj h).1]; simp) hv
  | cons c u ih =>
    cases v with
    | nil => exact absurd (by rw [← (List.cons.inj h).1]; simp) hu
    | cons c' v =>
      obtain ⟨h1, h2⟩ := List.cons.inj h
      obtain ⟨h3, h4⟩ := ih (fun h => hu (by simp [h])) (fun h => hv (by simp [h])) h2
      exact ⟨by rw [h1, h3], h4⟩

theorem digits_space {n m : Nat} {r r' : List Char} (h : natDigits n ++ ' ' :: r = natDigits m ++ ' ' :: r') :
    n = m ∧ r = r' := by
  obtain ⟨h1, h2⟩ := split_space (space_notMem n) (space_notMem m) h
  exact ⟨natDigits_inj h1, h2⟩

theorem byteRepr_code : ∀ x y : Fin 256,
    ((byteRepr '\'' (UInt8.ofFin x)).isPrefixOf (byteRepr '\'' (UInt8.ofFin y)) = true → x = y) ∧
    ((byteRepr '"' (UInt8.ofFin x)).isPrefixOf (byteRepr '"' (UInt8.ofFin y)) = true → x = y) := by decide +kernel

theorem byteRepr_prefix {q : Char} (hq : q = '\'' ∨ q = '"') {x y : UInt8} (h : byteRepr q x <+: byteRepr q y) : x = y := by
  have := byteRepr_code x.toFin y.toFin
  have hx : ∀ z : UInt8, UInt8.ofFin z.toFin = z := fun z => rfl
  rw [hx, hx] at this
  have h2 : x.toFin = y.toFin := by
    rcases hq with rfl | rfl
    · exact this.1 (List.isPrefixOf_iff_prefix.2 h)
    · exact this.2 (List.isPrefixOf_iff_prefix.2 h)
  exact UInt8.toFin_inj.1 h2

theorem byteRepr_ne_nil (q : Char) (x : UInt8) : byteRepr q x ≠ [] := by
  simp only [byteRepr]
  split
  · simp
  · repeat' split
    all_goals simp

theorem flatMap_repr_inj {q : Char} (hq : q = '\'' ∨ q = '"') {a b : Bytes}
    (h : a.flatMap (byteRepr q) = b.flatMap (byteRepr q)) : a = b := by
  induction a generalizing b with
  | nil =>
    cases b with
    | nil => rfl
    | cons y b =>
      have := byteRepr_ne_nil q y
      simp_all
  | cons x a ih =>
    cases b with
    | nil =>
      have := byteRepr_ne_nil q x
      simp_all
    | cons y b =>
      simp only [List.flatMap_cons] at h
      have hxy : x = y := by
        rcases Nat.le_total (byteRepr q x).length (byteRepr q y).length with hle | hle
        · exact byteRepr_prefix hq (List.prefix_of_prefix_length_le (l₃ := byteRepr q x ++ a.flatMap (byteRepr q))
            (List.prefix_append _ _) (by rw [h]; exact List.prefix_append _ _) hle)
        · exact (byteRepr_prefix hq (List.prefix_of_prefix_length_le (l₃ := byteRepr q x ++ a.flatMap (byteRepr q))
            (by rw [h]; exact List.prefix_append _ _) (List.prefix_append _ _) hle)).symm
      subst hxy
      rw [ih (List.append_cancel_left h)]

theorem reprQuote_either (b : Bytes) : reprQuote b = '\'' ∨ reprQuote b = '"' := by
  simp only [reprQuote]
  split
  · exact .inr rfl
  · exact .inl rfl

theorem bytesRepr_inj {a b : Bytes} (h : bytesRepr a = bytesRepr b) : a = b := by
  simp only [bytesRepr, List.cons.injEq, true_and] at h
  rw [h.1] at h
  exact flatMap_repr_inj (reprQuote_either b) (List.append_cancel_right h.2)

theorem text_noWord (got : Nat) : (Trouble.noWord got).text = some (msgShort 32 got) := rfl
theorem text_cut (asked got : Nat) : (Trouble.cut asked got).text = some (msgCut asked got) := rfl

/-- The two texts about missing bytes. -/
theorem short_cut {a g a' g' : Nat} (h : msgShort a g = msgCut a' g') : False := by
  have h1 := congrArg List.getLast? h
  simp only [msgShort, msgCut, List.getLast?_append] at h1
  exact absurd h1 (by simp)

theorem short_inj {g g' : Nat} (h : msgShort 32 g = msgShort 32 g') : g = g' := by
  simp only [msgShort] at h
  exact natDigits_inj (List.append_cancel_left (List.append_cancel_right h))

theorem cut_inj {a g a' g' : Nat} (h : msgCut a g = msgCut a' g') : a = a' ∧ g = g' := by
  simp only [msgCut, List.append_assoc] at h
  obtain ⟨h1, h2⟩ := digits_space (List.append_cancel_left h)
  exact ⟨h1, (digits_space (List.append_cancel_left h2 :)).1⟩

/-- The first letter. -/
def initial : Trouble → Option Char
  | .noWord _ => some 'T'
  | .cut _ _ => some 'T'
  | .pointer _ _ => some 'I'
  | .padding _ => some 'P'
  | .boolean _ => some 'B'
  | .tooLong => none
  | .notText => none

theorem text_initial (w : Trouble) : w.text.bind List.head? = initial w := by cases w <;> rfl

/-- A text tells what is wrong. -/
theorem text_inj {v w : Trouble} {s : List Char} (hv : v.text = some s) (hw : w.text = some s) : v = w := by
  have h : v.text = w.text := by rw [hv, hw]
  have hs : v.text.isSome = true := by rw [hv]; rfl
  clear hv hw
  cases v <;> cases w
  case noWord.noWord a b => rw [short_inj (Option.some.inj h)]
  case noWord.cut a b c => rw [text_noWord, text_cut] at h; exact (short_cut (Option.some.inj h)).elim
  case cut.noWord a b c => rw [text_noWord, text_cut] at h; exact (short_cut (Option.some.inj h).symm).elim
  case cut.cut a g a' g' => obtain ⟨rfl, rfl⟩ := cut_inj (Option.some.inj h); rfl
  case pointer.pointer c l c' l' =>
    simp only [Trouble.text, Option.some.injEq, List.append_assoc] at h
    have h := List.append_cancel_left h
    cases c <;> cases c'
    · have h := List.append_cancel_left (List.append_cancel_left h)
      rw [natDigits_inj (List.append_cancel_right h)]
    · exact absurd (congrArg List.head? h) (by simp [Container.name])
    · exact absurd (congrArg List.head? h) (by simp [Container.name])
    · have h := List.append_cancel_left (List.append_cancel_left h)
      rw [natDigits_inj (List.append_cancel_right h)]
  case padding.padding a b => rw [bytesRepr_inj (List.append_cancel_left (Option.some.inj h))]
  case boolean.boolean a b => rw [bytesRepr_inj (List.append_cancel_left (Option.some.inj h))]
  all_goals
    have h1 := congrArg (fun x => x.bind List.head?) h
    simp only [text_initial, initial] at h1
    first
      | exact absurd h1 (by decide)
      | exact absurd hs (by decide)

/-! ## What holds of everything that can be wrong -/

section
variable {d : Bytes} {Q : Trouble → Prop} (hword : ∀ p, NoWord d p → Q (.noWord (d.length - p)))
  (hptr : ∀ k q off, WordIs d q off → Q (.pointer k q))
include hword hptr

theorem heads_inv {k : Container} {base lo : Nat} {cs : List Component} (h : ∀ c ∈ cs, ∀ q w, c.breaks q w → Q w) :
    ∀ q w, HeadsBreak k d base lo q cs w → Q w := by
  induction cs with
  | nil => intro q w hb; exact absurd hb id
  | cons c cs ih =>
    intro q w hb
    rcases hb with hb | ⟨_, hb⟩
    · simp only [Component.HeadBreaks] at hb
      split at hb
      · rcases hb with ⟨h1, rfl⟩ | ⟨off, h1, _, rfl⟩
        · exact hword q h1
        · exact hptr k q off h1
      · exact h c (by simp) q w hb
    · exact ih (fun c hc => h c (by simp [hc])) _ w hb

omit hword hptr in
theorem tails_inv {base : Nat} {cs : List Component} (h : ∀ c ∈ cs, ∀ q w, c.breaks q w → Q w) :
    ∀ q w, TailsBreak d base q cs w → Q w := by
  induction cs with
  | nil => intro q w hb; exact absurd hb id
  | cons c cs ih =>
    intro q w hb
    rcases hb with ⟨_, off, _, hb⟩ | ⟨_, hb⟩
    · exact h c (by simp) _ w hb
    · exact ih (fun c hc => h c (by simp [hc])) _ w hb

theorem comps_inv {k : Container} {base lo : Nat} {cs : List Component} (h : ∀ c ∈ cs, ∀ q w, c.breaks q w → Q w)
    {w : Trouble} (hb : ComponentsBreak k d base lo cs w) : Q w := by
  rcases hb with hb | ⟨_, hb⟩
  · exact heads_inv hword hptr h _ w hb
  · exact tails_inv h _ w hb

theorem broken_inv (hby : ∀ strict p w, BytesBreak strict d p w → Q w) (hnt : Q .notText) (t : Ty) :
    (∀ u, Occurs u t → u.isLeaf = true → ∀ p, ¬ NoWord d p → (∀ x, Val.Of u x → ¬ At d p (enc u x)) →
      Q (wordTrouble u ((d.drop p).take 32))) → ∀ strict p w, Broken strict t d p w → Q w := by
  have leaf : ∀ u : Ty, u.isLeaf = true → (∀ strict p w, Broken strict u d p w → WordMissing d p w ∨
      (¬ NoWord d p ∧ (∀ x, Val.Of u x → ¬ At d p (enc u x)) ∧ w = wordTrouble u ((d.drop p).take 32))) →
      (∀ v, Occurs v u → v.isLeaf = true → ∀ p, ¬ NoWord d p → (∀ x, Val.Of v x → ¬ At d p (enc v x)) →
        Q (wordTrouble v ((d.drop p).take 32))) → ∀ strict p w, Broken strict u d p w → Q w := by
    intro u hu hb hl strict p w h
    rcases hb strict p w h with ⟨h1, rfl⟩ | ⟨h1, h2, rfl⟩
    · exact hword p h1
    · exact hl u .self hu p h1 h2
  refine Spec.Ty.ind (P := fun t => (∀ u, Occurs u t → u.isLeaf = true → ∀ p, ¬ NoWord d p →
      (∀ x, Val.Of u x → ¬ At d p (enc u x)) →
      Q (wordTrouble u ((d.drop p).take 32))) → ∀ strict p w, Broken strict t d p w → Q w)
    ?_ ?_ ?_ ?_ ?_ ?_ ?_ ?_ ?_ ?_ ?_ ?_ t
  · intro n; exact leaf _ rfl (fun _ _ _ h => by simpa only [Broken] using h)
  · intro n; exact leaf _ rfl (fun _ _ _ h => by simpa only [Broken] using h)
  · exact leaf _ rfl (fun _ _ _ h => by simpa only [Broken] using h)
  · exact leaf _ rfl (fun _ _ _ h => by simpa only [Broken] using h)
  · intro m n; exact leaf _ rfl (fun _ _ _ h => by simpa only [Broken] using h)
  · intro m n; exact leaf _ rfl (fun _ _ _ h => by simpa only [Broken] using h)
  · intro n; exact leaf _ rfl (fun _ _ _ h => by simpa only [Broken] using h)
  · intro _ strict p w h
    simp only [Broken] at h
    exact hby strict p w h
  · intro _ strict p w h
    simp only [Broken] at h
    rcases h with h | ⟨rfl, _⟩
    · exact hby strict p w h
    · exact hnt
  · intro k t ih hl strict p w h
    simp only [Broken] at h
    refine comps_inv hword hptr ?_ h
    intro c hc q w hb
    rw [(List.mem_replicate.1 hc).2] at hb
    exact ih (fun u hu => hl u (.sized hu)) _ q w hb
  · intro t ih hl strict p w h
    simp only [Broken] at h
    rcases h with ⟨h, rfl⟩ | ⟨k, _, h⟩
    · exact hword p h
    · refine comps_inv hword hptr ?_ h
      intro c hc q w hb
      rw [(List.mem_replicate.1 hc).2] at hb
      exact ih (fun u hu => hl u (.dyn hu)) _ q w hb
  · intro ts ih hl strict p w h
    simp only [Broken] at h
    refine comps_inv hword hptr ?_ h
    have hcs : ∀ us : List Ty, (∀ t ∈ us, t ∈ ts) → ∀ c ∈ components true us d, ∀ q w, c.breaks q w → Q w := by
      intro us
      induction us with
      | nil => intro _ c hc; simp [components] at hc
      | cons u us ih2 =>
        intro hm c hc q w hb
        simp only [components, List.mem_cons] at hc
        rcases hc with rfl | hc
        · exact ih u (hm u (by simp)) (fun v hv => hl v (.tuple (hm u (by simp)) hv)) _ q w hb
        · exact ih2 (fun t ht => hm t (by simp [ht])) c hc q w hb
    exact hcs ts fun _ h => h

theorem brokenArgs_inv (hby : ∀ strict p w, BytesBreak strict d p w → Q w) (hnt : Q .notText) {ts : List Ty}
    (hl : ∀ t ∈ ts, ∀ u, Occurs u t → u.isLeaf = true → ∀ p, ¬ NoWord d p → (∀ x, Val.Of u x → ¬ At d p (enc u x)) →
      Q (wordTrouble u ((d.drop p).take 32))) {strict : Bool} {w : Trouble} (h : BrokenArgs strict ts d w) : Q w := by
  refine comps_inv hword hptr ?_ h
  clear h
  induction ts with
  | nil => intro c hc; simp [components] at hc
  | cons u us ih =>
    intro c hc q w hb
    simp only [components, List.mem_cons] at hc
    rcases hc with rfl | hc
    · exact broken_inv hword hptr hby hnt u (hl u (by simp)) _ q w hb
    · exact ih (fun t ht => hl t (by simp [ht])) c hc q w hb

end

/-! ## Padding that is not empty -/

theorem nonzero_of {b : Bytes} {k : Nat} (hl : b.length = k) (h : b ≠ List.replicate k 0) : ∃ x ∈ b, x ≠ 0 := by
  by_contra hc
  push Not at hc
  exact h (List.eq_replicate_iff.2 ⟨hl, hc⟩)

/-- If a word is no value of an unsigned type, the padding that the text shows is not all zeros. -/
theorem wordTrouble_nonzero {u : Ty} (hl : u.isLeaf = true) (hv : u.Valid) (hs : ¬ Signed u) {raw : Bytes}
    (hr : raw.length = 32) (h : ∀ x, Val.Of u x → enc u x ≠ raw) {b : Bytes} (hb : wordTrouble u raw = .padding b) :
    ∃ x ∈ b, x ≠ 0 := by
  have hno : ∀ x, leafDec u raw ≠ .ok x := fun x hx => by
    have := (leafDec_iff hl hv hr).1 hx
    exact h x this.1 this.2
  cases u <;> simp only [Ty.isLeaf] at hl <;> try cases hl
  case uint n =>
    injection hb with hb
    refine nonzero_of (k := 32 - n / 8) (by rw [← hb]; simp [hr]) fun h => ?_
    exact hno _ (by rw [leafDec, leafU, if_pos (by rw [hb]; exact h)])
  case int n => exact absurd trivial hs
  case address =>
    injection hb with hb
    refine nonzero_of (k := 12) (by rw [← hb]; simp [hr]) fun h => ?_
    exact hno _ (by rw [leafDec, if_pos (by rw [hb]; exact h)])
  case bool =>
    rw [wordTrouble] at hb
    split at hb
    · next hd =>
      injection hb with hb
      refine nonzero_of (k := 31) (by rw [← hb]; simp [hr]) fun h => ?_
      exact hno _ (by rw [leafDec, if_pos hd, leafU, if_pos (by show raw.take 31 = _; rw [hb]; exact h)])
    · cases hb
  case ufixed m n =>
    injection hb with hb
    refine nonzero_of (k := 32 - m / 8) (by rw [← hb]; simp [hr]) fun h => ?_
    exact hno _ (by rw [leafDec, leafU, if_pos (by rw [hb]; exact h)])
  case fixed m n => exact absurd trivial hs
  case bytesM m =>
    injection hb with hb
    refine nonzero_of (k := 32 - m) (by rw [← hb]; simp [hr]) fun h => ?_
    exact hno _ (by rw [leafDec, if_pos (by rw [hb]; exact h)])

end EthAbi
