import Verif.Lemmas.PosTrouble

/-! # The exceptions of decoding by positions are those of the specification -/
namespace EthAbi
open Spec

theorem countedHead_eq (ts : List Ty) : countedHead ts = codeHead ts := by
  have : ∀ t : Ty, countedWords t = headWords t := by
    intro t
    simp only [countedWords, headWords, arrayDim]
    cases hd : t.dynamic <;> cases t <;> simp
  rw [countedHead, codeHead, headWordsAll, funext this]

theorem countedHead_fun : countedHead = codeHead := funext countedHead_eq

theorem noWord_iff {d : Bytes} {p : Nat} {w : Trouble} : wordT d p = .error w ↔ WordMissing d p w := by
  simp only [wordT, WordMissing, NoWord]
  split
  · simp; omega
  · constructor
    · intro h; injection h with h; exact ⟨by omega, h.symm⟩
    · rintro ⟨_, rfl⟩; rfl

theorem wordIs_iff {d : Bytes} {p n : Nat} : wordT d p = .ok n ↔ WordIs d p n := by
  rw [← TM.exc_eq_ok, wordT_exc]; exact wordAt_iff

theorem ptrT_ok {k : Container} {d : Bytes} {base lo q : Nat} : ptrT k d base lo q = .ok () ↔
    ∃ off, off < 2 ^ 256 ∧ At d q (be32 off) ∧ lo ≤ base + off ∧ base + off < d.length := by
  rw [← TM.exc_eq_ok, ptrT_exc]; exact checkPtr_iff

theorem ceil32_huge {n : Nat} : ssizeMax < ceil32 n ↔ 2 ^ 63 - 32 < n := by
  rw [ceil32_eq, ssizeMax]; omega

theorem drop_ne_zeros {b : Bytes} {n m : Nat} (hb : b.length = m) :
    b.drop n ≠ List.replicate (m - n) 0 ↔ ∃ q x, n ≤ q ∧ b[q]? = some x ∧ x ≠ 0 := by
  rw [ne_eq, List.eq_replicate_iff]
  constructor
  · intro h
    simp only [List.length_drop, hb, true_and, not_forall] at h
    obtain ⟨x, hx, hne⟩ := h
    obtain ⟨i, hi⟩ := List.mem_iff_getElem?.1 hx
    rw [List.getElem?_drop] at hi
    exact ⟨n + i, x, by omega, hi, hne⟩
  · rintro ⟨q, x, hq, hx, hne⟩ ⟨_, hall⟩
    refine hne (hall x ?_)
    refine List.mem_iff_getElem?.2 ⟨q - n, ?_⟩
    rw [List.getElem?_drop]
    rw [show n + (q - n) = q by omega]; exact hx

theorem bytesT_breaks {strict : Bool} {d : Bytes} {p : Nat} {e : Trouble} :
    bytesT strict d p = .error e ↔ BytesBreak strict d p e := by
  simp only [bytesT, TM.bind_eq_error, noWord_iff, wordIs_iff]
  constructor
  · rintro (h | ⟨n, hn, h⟩)
    · exact .noLength h
    · split at h
      · next hov => simp at h; subst h; exact .huge hn (ceil32_huge.1 hov)
      · next hov =>
        have hle : n ≤ 2 ^ 63 - 32 := by have := mt ceil32_huge.2 hov; omega
        have hc : ceil32 n = (n + 31) / 32 * 32 := by rw [ceil32_eq]; omega
        cases strict with
        | false => simp at h
        | true =>
          simp only [if_true] at h
          split at h
          · next hlen =>
            simp only [TM.throw_eq_error] at h
            injection h with h; subst h
            simp only [List.length_take, List.length_drop] at hlen ⊢
            have := BytesBreak.cut (strict := true) rfl hn hle (d := d) (by omega)
            rw [← hc] at this
            rw [show min (ceil32 n) (d.length - (p + 32)) = d.length - (p + 32) by omega]
            exact this
          · next hlen =>
            have hl : ((d.drop (p + 32)).take (ceil32 n)).length = ceil32 n := by
              simp only [List.length_take, List.length_drop] at hlen ⊢; omega
            have hl2 : ceil32 n ≤ d.length - (p + 32) := by
              simp only [List.length_take, List.length_drop] at hl; omega
            split at h
            · next hz =>
              simp only [TM.throw_eq_error] at h
              injection h with h; subst h
              obtain ⟨q, x, h1, h2, h3⟩ := (drop_ne_zeros hl).1 hz
              have hq : q < ceil32 n := by
                rcases Nat.lt_or_ge q (ceil32 n) with hq | hq
                · exact hq
                · rw [List.getElem?_eq_none (by rw [hl]; exact hq)] at h2; cases h2
              rw [List.getElem?_take_of_lt hq, List.getElem?_drop] at h2
              have := BytesBreak.padding (strict := true) rfl hn hle (d := d) (by omega) (q := p + 32 + q) (by omega)
                (by omega) h2 h3
              rw [← hc] at this
              rw [List.drop_take, List.drop_drop]
              exact this
            · simp at h
  · intro h
    cases h with
    | noLength h => exact .inl h
    | @huge n hn h => exact .inr ⟨n, hn, by rw [if_pos (ceil32_huge.2 h)]; rfl⟩
    | @cut n hs hn hle hlen =>
      subst hs
      have hc : ceil32 n = (n + 31) / 32 * 32 := by rw [ceil32_eq]; omega
      refine .inr ⟨n, hn, ?_⟩
      rw [if_neg (by have := mt (ceil32_huge (n := n)).1; omega)]
      simp only [if_true]
      have hw := at_length hn.2 (by simp)
      rw [be32_length] at hw
      rw [if_pos (by simp only [List.length_take, List.length_drop]; omega)]
      simp only [List.length_take, List.length_drop]
      rw [show min (ceil32 n) (d.length - (p + 32)) = d.length - (p + 32) by omega, hc]
      rfl
    | @padding n q x hs hn hle hlen hq1 hq2 hx hne =>
      subst hs
      have hc : ceil32 n = (n + 31) / 32 * 32 := by rw [ceil32_eq]; omega
      refine .inr ⟨n, hn, ?_⟩
      have hl : ((d.drop (p + 32)).take (ceil32 n)).length = ceil32 n := by
        simp only [List.length_take, List.length_drop]; omega
      rw [if_neg (by have := mt (ceil32_huge (n := n)).1; omega)]
      simp only [if_true]
      rw [if_neg (by rw [hl]; omega), if_pos]
      · rw [List.drop_take, List.drop_drop, hc]; rfl
      · refine (drop_ne_zeros hl).2 ⟨q - (p + 32), x, by omega, ?_, hne⟩
        rw [List.getElem?_take_of_lt (by omega), List.getElem?_drop, show p + 32 + (q - (p + 32)) = q by omega]
        exact hx

theorem bytesT_iff {strict : Bool} {d : Bytes} (hd : d.length ≤ ssizeMax) {p : Nat} {b : Bytes} :
    bytesT strict d p = .ok b ↔ (if strict then ReadsBytes d p b else ReadsBytesLax d p b) := by
  rw [← TM.exc_eq_ok, bytesT_exc]; exact posBytes_iff hd

theorem posDecT_iff (t : Ty) (hv : t.Valid) (strict : Bool) (d : Bytes) (hd : d.length ≤ ssizeMax) (p : Nat) (x : Val) :
    posDecT strict t d p = .ok x ↔ Reads codeHead strict t d p x := by
  rw [← TM.exc_eq_ok, posDecT_exc]; exact posDec_iff t hv strict d hd p x

theorem textT_error {b : Bytes} {w : Trouble} : textT b = .error w ↔ w = .notText ∧ ∀ s, utf8Encode? s ≠ some b := by
  simp only [textT]
  cases h : utf8Decode b with
  | ok s =>
    simp only [reduceCtorEq, false_iff]
    rintro ⟨_, h2⟩
    exact h2 s (utf8Decode_ok_iff.1 h)
  | error e =>
    constructor
    · intro h2
      injection h2 with h2
      refine ⟨h2.symm, fun s hs => ?_⟩
      rw [utf8Decode_ok_iff.2 hs] at h; cases h
    · rintro ⟨rfl, _⟩; rfl

theorem posDecT_static_strict {t : Ty} (hd : t.dynamic = false) (s s' : Bool) (d : Bytes) (p : Nat) :
    posDecT s t d p = posDecT s' t d p := by
  cases t <;> first | rfl | (simp [Ty.dynamic] at hd)

theorem checkPtr_breaks {k : Container} {d : Bytes} {base lo q : Nat} {e : Trouble} :
    ptrT k d base lo q = .error e ↔ WordMissing d q e ∨
      (∃ off, WordIs d q off ∧ (base + off < lo ∨ d.length ≤ base + off) ∧ e = .pointer k q) := by
  simp only [ptrT, TM.bind_eq_error, noWord_iff, wordIs_iff]
  constructor
  · rintro (h | ⟨n, h1, h2⟩)
    · exact .inl h
    · split at h2
      · next hb => simp at h2; exact .inr ⟨n, h1, hb, h2.symm⟩
      · simp at h2
  · rintro (h | ⟨n, h1, h2, rfl⟩)
    · exact .inl h
    · exact .inr ⟨n, h1, by rw [if_pos h2]; rfl⟩

/-- A component of the specification and the function that decodes it. -/
structure CompFor (c : Component) (f : Nat → TM Val) : Prop where
  reads : ∀ q, c.reads q ↔ ∃ x, f q = .ok x
  breaks : ∀ q e, c.breaks q e ↔ f q = .error e

theorem headFine_iff {k : Container} {c : Component} {f : Nat → TM Val} (h : CompFor c f) {d : Bytes} {base lo q : Nat} :
    headT k c.dynamic f d base lo q = .ok () ↔ c.HeadFine d base lo q := by
  simp only [headT, Component.HeadFine]
  cases c.dynamic
  · simp only [Bool.false_eq_true, if_false, h.reads, TM.bind_eq_ok]
    exact ⟨fun ⟨x, hx, _⟩ => ⟨x, hx⟩, fun ⟨x, hx⟩ => ⟨x, hx, trivial⟩⟩
  · simp only [if_true, ptrT_ok, WordIs]
    exact ⟨fun ⟨o, h1, h2, h3, h4⟩ => ⟨o, ⟨h1, h2⟩, h3, h4⟩, fun ⟨o, ⟨h1, h2⟩, h3, h4⟩ => ⟨o, h1, h2, h3, h4⟩⟩

theorem headBreaks_iff {k : Container} {c : Component} {f : Nat → TM Val} (h : CompFor c f) {d : Bytes} {base lo q : Nat}
    {e : Trouble} : headT k c.dynamic f d base lo q = .error e ↔ c.HeadBreaks k d base lo q e := by
  simp only [headT, Component.HeadBreaks]
  cases c.dynamic
  · simp only [Bool.false_eq_true, if_false, h.breaks, TM.bind_eq_error]
    constructor
    · rintro (h | ⟨_, _, h⟩)
      · exact h
      · cases h
    · exact .inl
  · simp only [if_true]
    exact checkPtr_breaks

/-- Behind a head that is as it should be, the component breaks where it is. -/
theorem posItem_breaks {c : Component} {f : Nat → TM Val} (h : CompFor c f) {d : Bytes} (hd : d.length ≤ ssizeMax)
    {base lo q : Nat} (hf : c.HeadFine d base lo q) {e : Trouble} :
    itemT c.dynamic f d base q = .error e ↔
      (c.dynamic = true ∧ ∃ off, WordIs d q off ∧ c.breaks (base + off) e) := by
  simp only [Component.HeadFine] at hf
  simp only [itemT]
  cases hdy : c.dynamic <;> rw [hdy] at hf
  · simp only [Bool.false_eq_true, if_false, false_and, iff_false] at hf ⊢
    obtain ⟨x, hx⟩ := (h.reads q).1 hf
    rw [hx]; simp
  · simp only [if_true, true_and] at hf ⊢
    obtain ⟨off, hw, h1, h2⟩ := hf
    rw [wordIs_iff.2 hw, TM.ok_bind, if_neg (by omega)]
    simp only [h.breaks]
    constructor
    · intro he; exact ⟨off, hw, by simpa using he⟩
    · rintro ⟨off', hw', he⟩
      have := (wordIs_iff.2 hw).symm.trans (wordIs_iff.2 hw')
      injection this with this
      subst this
      simpa using he

theorem posItem_reads {c : Component} {f : Nat → TM Val} (h : CompFor c f) {d : Bytes} (hd : d.length ≤ ssizeMax)
    {base lo q : Nat} (hf : c.HeadFine d base lo q) :
    (∃ x, itemT c.dynamic f d base q = .ok x) ↔
      (c.dynamic = true → ∃ off, WordIs d q off ∧ c.reads (base + off)) := by
  simp only [Component.HeadFine] at hf
  simp only [itemT]
  cases hdy : c.dynamic <;> rw [hdy] at hf
  · simp only [Bool.false_eq_true, if_false, false_imp_iff, iff_true] at hf ⊢
    exact (h.reads q).1 hf
  · simp only [if_true, true_imp_iff] at hf ⊢
    obtain ⟨off, hw, h1, h2⟩ := hf
    rw [wordIs_iff.2 hw, TM.ok_bind, if_neg (by omega)]
    simp only [h.reads]
    constructor
    · rintro ⟨x, he⟩; exact ⟨off, hw, x, by simpa using he⟩
    · rintro ⟨off', hw', x, he⟩
      have := (wordIs_iff.2 hw).symm.trans (wordIs_iff.2 hw')
      injection this with this
      subst this
      exact ⟨x, by simpa using he⟩

/-! ## Arrays -/

theorem tails_static_false {c : Component} (hc : c.dynamic = false) {d : Bytes} {base k q : Nat} {e : Trouble} :
    ¬ TailsBreak d base q (List.replicate k c) e := by
  induction k generalizing q with
  | zero => exact id
  | succ k ih =>
    rw [List.replicate_succ, TailsBreak, hc]
    rintro (⟨h, _⟩ | ⟨_, h⟩)
    · cases h
    · exact ih h

theorem checkPtrs_breaks {c : Component} {f : Nat → TM Val} (h : CompFor c f) (hc : c.dynamic = true)
    (hs : c.step = 32) {d : Bytes} {base lo k q : Nat} :
    (ptrsT d base lo k q = .ok () ↔ HeadsFine d base lo q (List.replicate k c)) ∧
    ∀ e, ptrsT d base lo k q = .error e ↔ HeadsBreak .array d base lo q (List.replicate k c) e := by
  induction k generalizing q with
  | zero => simp [ptrsT, HeadsFine, HeadsBreak]
  | succ k ih =>
    have h1 := headFine_iff (k := .array) h (d := d) (base := base) (lo := lo) (q := q)
    have h2 := fun e => headBreaks_iff (k := .array) h (d := d) (base := base) (lo := lo) (q := q) (e := e)
    have hck : headT .array c.dynamic f d base lo q = ptrT .array d base lo q := by simp [headT, hc]
    rw [hck] at h1
    simp only [hck] at h2
    obtain ⟨i1, i2⟩ := ih (q := q + 32)
    simp only [ptrsT, List.replicate_succ, HeadsFine, HeadsBreak, hs, ← h1, ← h2, ← i1, ← i2, TM.bind_eq_ok,
      TM.bind_eq_error]
    exact ⟨⟨fun ⟨_, a, b⟩ => ⟨a, b⟩, fun ⟨a, b⟩ => ⟨(), a, b⟩⟩, fun e =>
      or_congr Iff.rfl ⟨fun ⟨_, a, b⟩ => ⟨a, b⟩, fun ⟨a, b⟩ => ⟨(), a, b⟩⟩⟩

theorem posMany_staticBreaks {c : Component} {f : Nat → TM Val} (h : CompFor c f) (hc : c.dynamic = false) {d : Bytes}
    {base lo k q : Nat} :
    ((∃ xs, manyT (itemT c.dynamic f d base) c.step k q = .ok xs) ↔
      HeadsFine d base lo q (List.replicate k c)) ∧
    ∀ e, manyT (itemT c.dynamic f d base) c.step k q = .error e ↔
      HeadsBreak .array d base lo q (List.replicate k c) e := by
  induction k generalizing q with
  | zero => simp [manyT, HeadsFine, HeadsBreak]
  | succ k ih =>
    have h1 : (∃ x, itemT c.dynamic f d base q = .ok x) ↔ c.HeadFine d base lo q := by
      simp [itemT, hc, Component.HeadFine, h.reads]
    have h2 : ∀ e, itemT c.dynamic f d base q = .error e ↔ c.HeadBreaks .array d base lo q e := by
      simp [itemT, hc, Component.HeadBreaks, h.breaks]
    obtain ⟨i1, i2⟩ := ih (q := q + c.step)
    simp only [manyT, List.replicate_succ, HeadsFine, HeadsBreak, ← h1, ← h2, ← i1, ← i2, TM.bind_eq_ok,
      TM.bind_eq_error, TM.pure_eq_ok]
    refine ⟨⟨fun ⟨_, x, a, xs, b, _⟩ => ⟨⟨x, a⟩, xs, b⟩, fun ⟨⟨x, a⟩, xs, b⟩ => ⟨_, x, a, xs, b, rfl⟩⟩, fun e =>
      or_congr Iff.rfl ⟨?_, ?_⟩⟩
    · rintro ⟨x, a, b | ⟨_, _, b⟩⟩
      · exact ⟨⟨x, a⟩, b⟩
      · cases b
    · rintro ⟨⟨x, a⟩, b⟩
      exact ⟨x, a, .inl b⟩

theorem posMany_tails {c : Component} {f : Nat → TM Val} (h : CompFor c f) {d : Bytes} (hd : d.length ≤ ssizeMax)
    {base lo k q : Nat} (hf : HeadsFine d base lo q (List.replicate k c)) {e : Trouble} :
    manyT (itemT c.dynamic f d base) c.step k q = .error e ↔
      TailsBreak d base q (List.replicate k c) e := by
  induction k generalizing q with
  | zero => simp [manyT, TailsBreak]
  | succ k ih =>
    rw [List.replicate_succ, HeadsFine] at hf
    have h1 := posItem_breaks h hd hf.1 (e := e)
    have h2 := posItem_reads h hd hf.1
    simp only [manyT, List.replicate_succ, TailsBreak, ← h1, ← h2, ← ih hf.2, TM.bind_eq_error, TM.pure_eq_ok]
    refine or_congr Iff.rfl ⟨?_, ?_⟩
    · rintro ⟨x, a, b | ⟨_, _, b⟩⟩
      · exact ⟨⟨x, a⟩, b⟩
      · cases b
    · rintro ⟨⟨x, a⟩, b⟩
      exact ⟨x, a, .inl b⟩

theorem posSeq_breaks {c : Component} {f : Nat → TM Val} (h : CompFor c f) (hs : c.dynamic = true → c.step = 32)
    {d : Bytes} (hd : d.length ≤ ssizeMax) {k p : Nat} {e : Trouble} :
    seqT c.dynamic f c.step k d p = .error e ↔ ComponentsBreak .array d p (p + 32 * k) (List.replicate k c) e := by
  cases hc : c.dynamic with
  | false =>
    have h1 := (posMany_staticBreaks h hc (d := d) (base := p) (lo := p + 32 * k) (k := k) (q := p)).2 e
    rw [hc] at h1
    simp only [seqT, Bool.false_eq_true, if_false, TM.ok_bind, ComponentsBreak, h1, tails_static_false hc, and_false,
      or_false]
  | true =>
    obtain ⟨h1, h2⟩ := checkPtrs_breaks h hc (hs hc) (d := d) (base := p) (lo := p + 32 * k) (k := k) (q := p)
    simp only [seqT, if_true, TM.bind_eq_error, h2, ComponentsBreak, ← h1]
    refine or_congr Iff.rfl ⟨?_, ?_⟩
    · rintro ⟨_, a, b⟩
      refine ⟨a, ?_⟩
      rw [← hc] at b
      exact (posMany_tails h hd (h1.1 a)).1 b
    · rintro ⟨a, b⟩
      refine ⟨(), a, ?_⟩
      rw [← hc]
      exact (posMany_tails h hd (h1.1 a)).2 b

/-! ## Tuples -/

theorem all_breaks {ts : List Ty} {strict : Bool} {d : Bytes} (hd : d.length ≤ ssizeMax)
    (hf : ∀ t ∈ ts, CompFor ⟨t.dynamic, headStep t, fun q => ∃ x, Reads countedHead strict t d q x,
      Broken strict t d⟩ (posDecT strict t d)) {base lo q : Nat} :
    (checkAllT ts d base lo q = .ok () ↔ HeadsFine d base lo q (components strict ts d)) ∧
    (∀ e, checkAllT ts d base lo q = .error e ↔ HeadsBreak .tuple d base lo q (components strict ts d) e) ∧
    (HeadsFine d base lo q (components strict ts d) → ∀ e,
      posAllT strict ts d base q = .error e ↔ TailsBreak d base q (components strict ts d) e) := by
  induction ts generalizing q with
  | nil => simp [checkAllT, posAllT, components, HeadsFine, HeadsBreak, TailsBreak]
  | cons t ts ih =>
    have hc := hf t (by simp)
    obtain ⟨i1, i2, i3⟩ := ih (q := q + headStep t) (fun t ht => hf t (by simp [ht]))
    have hck : headT .tuple t.dynamic (posDecT true t d) d base lo q = headT .tuple t.dynamic (posDecT strict t d) d base lo q := by
      cases hdy : t.dynamic with
      | true => rfl
      | false => simp only [headT, posDecT_static_strict hdy true strict]
    have h1 := headFine_iff (k := .tuple) hc (d := d) (base := base) (lo := lo) (q := q)
    have h2 := fun e => headBreaks_iff (k := .tuple) hc (d := d) (base := base) (lo := lo) (q := q) (e := e)
    rw [← hck] at h1
    simp only at h2
    rw [← hck] at h2
    refine ⟨?_, fun e => ?_, fun hfine e => ?_⟩
    · simp only [checkAllT, components, HeadsFine, ← h1, ← i1, TM.bind_eq_ok]
      exact ⟨fun ⟨_, a, b⟩ => ⟨a, b⟩, fun ⟨a, b⟩ => ⟨(), a, b⟩⟩
    · simp only [checkAllT, components, HeadsBreak, ← h1, ← h2, ← i2, TM.bind_eq_error]
      exact or_congr Iff.rfl ⟨fun ⟨_, a, b⟩ => ⟨a, b⟩, fun ⟨a, b⟩ => ⟨(), a, b⟩⟩
    · simp only [components, HeadsFine] at hfine
      have h3 := posItem_breaks hc hd hfine.1 (e := e)
      have h4 := posItem_reads hc hd hfine.1
      simp only [posAllT, components, TailsBreak, ← h3, ← h4, ← i3 hfine.2, TM.bind_eq_error, TM.pure_eq_ok]
      refine or_congr Iff.rfl ⟨?_, ?_⟩
      · rintro ⟨x, a, b | ⟨_, _, b⟩⟩
        · exact ⟨⟨x, a⟩, b⟩
        · cases b
      · rintro ⟨⟨x, a⟩, b⟩
        exact ⟨x, a, .inl b⟩

theorem compFor {t : Ty} {strict : Bool} {d : Bytes}
    (h1 : ∀ p x, posDecT strict t d p = .ok x ↔ Reads codeHead strict t d p x)
    (h2 : ∀ p e, posDecT strict t d p = .error e ↔ Broken strict t d p e) :
    CompFor ⟨t.dynamic, headStep t, fun q => ∃ x, Reads countedHead strict t d q x, Broken strict t d⟩
      (posDecT strict t d) where
  reads q := by simp only [h1, countedHead_fun]
  breaks q e := (h2 q e).symm

/-- A failing decoding is exactly a breaking. -/
theorem posDec_breaks (t : Ty) : t.Valid → ∀ (strict : Bool) (d : Bytes), d.length ≤ ssizeMax →
    ∀ p e, posDecT strict t d p = .error e ↔ Broken strict t d p e := by
  refine Spec.Ty.ind (P := fun t => t.Valid → ∀ (strict : Bool) (d : Bytes), d.length ≤ ssizeMax →
    ∀ p e, posDecT strict t d p = .error e ↔ Broken strict t d p e)
    ?_ ?_ ?_ ?_ ?_ ?_ ?_ ?_ ?_ ?_ ?_ ?_ t
  iterate 7
    intros
    rename_i hv strict d hd p e
    have hok := fun x => posDec_iff _ hv strict d hd p x
    rw [posDec_leaf rfl] at hok
    simp only [Broken, posDecT, leafT, WordMissing]
    simp only [Reads] at hok
    simp only [NoWord]
    rcases Nat.lt_or_ge d.length (p + 32) with hl | hl
    · rw [if_neg (by omega)]
      constructor
      · intro h; injection h with h; exact .inl ⟨hl, h.symm⟩
      · rintro (⟨_, rfl⟩ | ⟨h, _⟩)
        · rfl
        · exact absurd hl h
    · have hb : bytesAt d p 32 = .ok ((d.drop p).take 32) := by rw [bytesAt, if_pos (by omega)]
      rw [hb, EthAbi.ok_bind] at hok
      rw [if_pos (by omega)]
      constructor
      · intro h
        refine .inr ⟨by omega, fun x hx hat => ?_, ?_⟩
        · rw [(hok x).2 ⟨hx, hat⟩] at h
          cases h
        · split at h
          · cases h
          · injection h with h; exact h.symm
      · rintro (⟨h, _⟩ | ⟨_, h, rfl⟩)
        · omega
        · rcases ok_or_error (leafDec _ ((d.drop p).take 32)) with ⟨x, hx⟩ | ⟨e, he⟩
          · exact absurd ((hok x).1 hx).2 (h x ((hok x).1 hx).1)
          · rw [he]
  · intro _ strict d hd p e
    simp only [posDecT, TM.bind_eq_error, TM.pure_eq_ok, bytesT_breaks, Broken]
    constructor
    · rintro (h | ⟨_, _, h⟩)
      · exact h
      · cases h
    · exact .inl
  · intro _ strict d hd p e
    simp only [posDecT, TM.bind_eq_error, TM.pure_eq_ok, bytesT_breaks, Broken, bytesT_iff hd, textT_error]
    refine or_congr Iff.rfl ⟨?_, ?_⟩
    · rintro ⟨b, hb, ⟨rfl, h⟩ | ⟨_, _, h⟩⟩
      · exact ⟨rfl, b, hb, h⟩
      · cases h
    · rintro ⟨rfl, b, hb, h⟩
      exact ⟨b, hb, .inl ⟨rfl, h⟩⟩
  · intro k t ih hv strict d hd p e
    have hseq := fun k p e => posSeq_breaks (compFor (posDecT_iff t hv.2 true d hd) (ih hv.2 true d hd))
      (fun h => by simp only at h ⊢; rw [headStep, if_pos h]) hd (k := k) (p := p) (e := e)
    simp only at hseq
    simp only [posDecT, TM.bind_eq_error, TM.pure_eq_ok, hseq, Broken]
    constructor
    · rintro (h | ⟨_, _, h⟩)
      · exact h
      · cases h
    · exact .inl
  · intro t ih hv strict d hd p e
    have hseq := fun k p e => posSeq_breaks (compFor (posDecT_iff t hv true d hd) (ih hv true d hd))
      (fun h => by simp only at h ⊢; rw [headStep, if_pos h]) hd (k := k) (p := p) (e := e)
    simp only at hseq
    simp only [posDecT, TM.bind_eq_error, TM.pure_eq_ok, hseq, Broken, noWord_iff, wordIs_iff]
    refine or_congr Iff.rfl ⟨?_, ?_⟩
    · rintro ⟨k, hk, h | ⟨_, _, h⟩⟩
      · exact ⟨k, hk, h⟩
      · cases h
    · rintro ⟨k, hk, h⟩
      exact ⟨k, hk, .inl h⟩
  · intro ts ih hv strict d hd p e
    have hva := Spec.Ty.allValid_iff.1 hv.2
    obtain ⟨h1, h2, h3⟩ := all_breaks (ts := ts) (strict := true) hd
      (fun t ht => compFor (posDecT_iff t (hva t ht) true d hd) (ih t ht (hva t ht) true d hd))
      (base := p) (lo := p + 32 * headWordsAll ts) (q := p)
    simp only [posDecT, TM.bind_eq_error, TM.pure_eq_ok, Broken, ComponentsBreak, countedHead_eq, codeHead, h2, ← h1]
    refine or_congr Iff.rfl ⟨?_, ?_⟩
    · rintro ⟨_, a, b | ⟨_, _, b⟩⟩
      · exact ⟨a, (h3 (h1.1 a) e).1 b⟩
      · cases b
    · rintro ⟨a, b⟩
      exact ⟨(), a, .inl ((h3 (h1.1 a) e).2 b)⟩

theorem posTop_breaks {ts : List Ty} (hv : ∀ t ∈ ts, t.Valid) (strict : Bool) {d : Bytes}
    (hd : d.length ≤ ssizeMax) {e : Trouble} : posTopT strict ts d = .error e ↔ BrokenArgs strict ts d e := by
  obtain ⟨h1, h2, h3⟩ := all_breaks (ts := ts) (strict := strict) hd
    (fun t ht => compFor (posDecT_iff t (hv t ht) strict d hd) (posDec_breaks t (hv t ht) strict d hd))
    (base := 0) (lo := 32 * headWordsAll ts) (q := 0)
  simp only [posTopT, TM.bind_eq_error, BrokenArgs, ComponentsBreak, countedHead_eq, codeHead, h2, ← h1]
  refine or_congr Iff.rfl ⟨?_, ?_⟩
  · rintro ⟨_, a, b⟩
    exact ⟨a, (h3 (h1.1 a) e).1 b⟩
  · rintro ⟨a, b⟩
    exact ⟨(), a, (h3 (h1.1 a) e).2 b⟩

end EthAbi
