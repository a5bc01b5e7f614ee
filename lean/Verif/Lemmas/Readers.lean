import Verif.Spec.Readers
import Verif.Lemmas.Composed

/-! # What the types built from registered decoders read -/
namespace EthAbi
open Spec

/-- What is shown of the decoder of a component. -/
structure MemberOf (d : Decoder) (P : Member) : Prop where
  dyn : d.dyn = P.dyn
  plain : d.isHeadTail = false
  words : d.arraySize.getD 1 = P.words
  sound : ∀ fl (st st' : Stream) v, st.data.length ≤ ssizeMax → st.pos ≤ ssizeMax →
    (d.dyn = true → st.total = st.pos) → d.call fl st = .ok (v, st') →
    st' = { st with pos := st'.pos } ∧ st'.pos ≤ ssizeMax ∧
      ∃ p, P.reader st.data st.pos v p ∧ (d.dyn = false → st'.pos = p)
  complete : ∀ fl (st : Stream) v p, st.data.length ≤ ssizeMax → st.pos ≤ ssizeMax →
    (d.dyn = true → st.total = st.pos) → P.reader st.data st.pos v p →
    ∃ st', d.call fl st = .ok (v, st') ∧ (d.dyn = false → st'.pos = p)

theorem same_of {A : Bool → Reader} (h : A false = A true) (b b' : Bool) : A b = A b' := by
  cases b <;> cases b' <;> simp [h]

theorem readsBy_at {d : Decoder} {A : Bool → Reader} (h : ReadsBy d A) (fl : Flags) :
    A (d.isStrict fl) = A true := by
  rcases h.same with h1 | ⟨_, h1⟩
  · exact same_of h1 _ _
  · simp only [Decoder.isStrict, h1]

theorem partOf_inner {d : Decoder} {A : Bool → Reader} (h : ReadsBy d A) {dy : Bool} {n : Nat}
    (hd : d.dyn = dy) (hn : d.arraySize.getD 1 = n) : MemberOf d ⟨dy, n, A true⟩ where
  dyn := hd
  plain := h.plain
  words := hn
  sound fl st st' v h1 h2 h3 h4 := by
    have := h.sound fl (d.isStrict fl) st st' v h1 h2 h3 h4
    rwa [readsBy_at h] at this
  complete fl st v p h1 h2 h3 h4 := by
    refine h.complete fl (d.isStrict fl) st v p h1 h2 h3 ?_
    rwa [readsBy_at h]

theorem setStrict_dyn (d : Decoder) (b : Bool) : (d.setStrict b).dyn = d.dyn ∧
    (d.setStrict b).isHeadTail = d.isHeadTail ∧ (d.setStrict b).arraySize = d.arraySize ∧
    (d.setStrict b).run = d.run ∧ (d.setStrict b).isDynamic = d.isDynamic := by
  unfold Decoder.setStrict
  split
  · split <;> exact ⟨rfl, rfl, rfl, rfl, rfl⟩
  · exact ⟨rfl, rfl, rfl, rfl, rfl⟩

theorem readsBy_set {d : Decoder} {A : Bool → Reader} (h : ReadsBy d A) (b : Bool) (fl : Flags) :
    A ((d.setStrict b).isStrict fl) = A b := by
  rcases h.same with h1 | ⟨h0, h1⟩
  · exact same_of h1 _ _
  · simp only [Decoder.setStrict, h0, h1, if_true, Decoder.isStrict]

theorem partOf_top {d : Decoder} {A : Bool → Reader} (h : ReadsBy d A) {dy : Bool} {n : Nat}
    (hd : d.dyn = dy) (hn : d.arraySize.getD 1 = n) (b : Bool) : MemberOf (d.setStrict b) ⟨dy, n, A b⟩ := by
  obtain ⟨e1, e2, e3, e4, _⟩ := setStrict_dyn d b
  refine ⟨by rw [e1, hd], by rw [e2]; exact h.plain, by rw [e3, hn], ?_, ?_⟩
  · intro fl st st' v h1 h2 h3 h4
    rw [Decoder.call, e4] at h4
    rw [e1] at h3 ⊢
    have := h.sound fl _ st st' v h1 h2 h3 h4
    rwa [readsBy_set h] at this
  · intro fl st v p h1 h2 h3 h4
    rw [e1] at h3 ⊢
    rw [Decoder.call, e4]
    refine h.complete fl _ st v p h1 h2 h3 ?_
    rwa [readsBy_set h]

/-! ## A component behind an offset -/

theorem word_ok {st st' : Stream} {n : Nat} (h : decodeUint256 st = .ok (n, st')) :
    n < 2 ^ 256 ∧ At st.data st.pos (be32 n) ∧ st.pos + 32 ≤ st.data.length ∧
      st' = { st with pos := st.pos + 32 } := by
  rcases decodeUint256_spec st with ⟨m, h1, h2, h3⟩ | ⟨_, h1⟩
  · rw [h3] at h
    injection h with h
    injection h with h4 h5
    subst h4
    obtain ⟨a, b⟩ := wordAt_iff.1 h1
    exact ⟨a, b, h2, h5.symm⟩
  · rw [h1] at h; cases h

theorem headTail_sound {d : Decoder} {P : Member} (h : MemberOf d P) {fl : Flags} {st st' : Stream} {v : PyVal}
    (hl : st.data.length ≤ ssizeMax) {off : Nat} {st1 : Stream} (hw : decodeUint256 st = .ok (off, st1))
    (hc : (headTail d).call fl st = .ok (v, st')) :
    st' = { st with pos := st.pos + 32 } ∧ ∃ p, P.reader st.data (st.total + off) v p := by
  obtain ⟨_, _, h1, rfl⟩ := word_ok hw
  simp only [Decoder.call, headTail, hw, ok_bind, Stream.pushFrame, Stream.seekInFrame, Stream.seek,
    Nat.add_zero] at hc
  by_cases ho : ssizeMax < st.total + off
  · rw [if_pos ho] at hc; cases hc
  rw [if_neg ho, ok_bind] at hc
  obtain ⟨⟨v', st3⟩, h3, h4⟩ := bind_eq_ok.1 hc
  obtain ⟨g1, _, p, g3, _⟩ := h.sound fl
    ⟨st.data, st.total + off, (off, st.pos + 32) :: st.frames, st.total + off⟩ st3 v' hl (by simp only; omega)
    (fun _ => rfl) h3
  rw [g1] at h4
  simp only [Stream.popFrame, Stream.seek] at h4
  rw [if_neg (by omega), ok_bind, pure_eq_ok] at h4
  injection h4 with h4
  injection h4 with h5 h6
  subst h5
  refine ⟨?_, p, g3⟩
  rw [← h6]
  refine stream_eq rfl rfl rfl ?_
  show st.total + off - off = st.total
  omega

theorem headTail_complete {d : Decoder} {P : Member} (h : MemberOf d P) {fl : Flags} {st : Stream} {v : PyVal}
    (hl : st.data.length ≤ ssizeMax) {off : Nat} {st1 : Stream} (hw : decodeUint256 st = .ok (off, st1))
    (ho : st.total + off < st.data.length) {p : Nat} (hr : P.reader st.data (st.total + off) v p) :
    (headTail d).call fl st = .ok (v, { st with pos := st.pos + 32 }) := by
  obtain ⟨_, _, h1, rfl⟩ := word_ok hw
  simp only [Decoder.call, headTail, hw, ok_bind, Stream.pushFrame, Stream.seekInFrame, Stream.seek,
    Nat.add_zero]
  rw [if_neg (by omega), ok_bind]
  obtain ⟨st3, g1, _⟩ := h.complete fl
    ⟨st.data, st.total + off, (off, st.pos + 32) :: st.frames, st.total + off⟩ v p hl (by simp only; omega)
    (fun _ => rfl) hr
  obtain ⟨g2, _, _⟩ := h.sound fl
    ⟨st.data, st.total + off, (off, st.pos + 32) :: st.frames, st.total + off⟩ st3 v hl (by simp only; omega)
    (fun _ => rfl) g1
  have g1' : d.run fl (d.isStrict fl) ⟨st.data, st.total + off, (off, st.pos + 32) :: st.frames, st.total + off⟩
    = .ok (v, st3) := g1
  rw [g1', ok_bind, g2]
  simp only [Stream.popFrame, Stream.seek]
  rw [if_neg (by omega), ok_bind, pure_eq_ok]
  congr 2
  refine stream_eq rfl rfl rfl ?_
  show st.total + off - off = st.total
  omega

/-! ## Components one after the other -/

theorem wrap_true {d : Decoder} (h : d.dyn = true) : wrapDyn d = headTail d := by rw [wrapDyn, if_pos h]
theorem wrap_false {d : Decoder} (h : d.dyn = false) : wrapDyn d = d := by rw [wrapDyn, if_neg (by simp [h])]

theorem check_dyn {d : Decoder} (hdy : d.dyn = true) {ds : List Decoder} {fl : Flags} {base lo : Nat}
    {st st1 : Stream} (h : tupleCheckLoop fl base lo (wrapDyn d :: ds) st = .ok st1) :
    ∃ off, decodeUint256 st = .ok (off, { st with pos := st.pos + 32 }) ∧ lo ≤ base + off ∧
      base + off < st.data.length ∧ tupleCheckLoop fl base lo ds { st with pos := st.pos + 32 } = .ok st1 := by
  rw [tupleCheckLoop, wrap_true hdy, if_pos (show (headTail d).isHeadTail = true from rfl)] at h
  obtain ⟨⟨off, st3⟩, h3, h4⟩ := bind_eq_ok.1 h
  obtain ⟨_, _, _, rfl⟩ := word_ok h3
  simp only at h4
  split at h4
  · cases h4
  · next hb => exact ⟨off, h3, by omega, by omega, h4⟩

theorem check_static {d : Decoder} (hdy : d.dyn = false) (hp : d.isHeadTail = false) {ds : List Decoder}
    {fl : Flags} {base lo : Nat} {st st1 : Stream}
    (h : tupleCheckLoop fl base lo (wrapDyn d :: ds) st = .ok st1) :
    ∃ w st2, d.call fl st = .ok (w, st2) ∧ tupleCheckLoop fl base lo ds st2 = .ok st1 := by
  rw [tupleCheckLoop, wrap_false hdy, if_neg (by simp [hp])] at h
  obtain ⟨⟨w, st2⟩, h3, h4⟩ := bind_eq_ok.1 h
  exact ⟨w, st2, h3, h4⟩

theorem check_stays {ds : List Decoder} {Ps : List Member} (h : List.Forall₂ MemberOf ds Ps) {fl : Flags}
    {base lo : Nat} : ∀ {st st1 : Stream}, st.data.length ≤ ssizeMax → st.pos ≤ ssizeMax →
    tupleCheckLoop fl base lo (ds.map wrapDyn) st = .ok st1 → st1 = { st with pos := st1.pos } := by
  induction h with
  | nil =>
    intro st st1 _ _ hc
    cases hc
    rfl
  | @cons d P ds Ps hd _ ih =>
    intro st st1 hl hp hc
    rw [List.map_cons] at hc
    cases hdy : d.dyn with
    | true =>
      obtain ⟨off, h3, _, _, h2⟩ := check_dyn hdy hc
      obtain ⟨_, _, h5, _⟩ := word_ok h3
      exact ih (st := { st with pos := st.pos + 32 }) hl (by simp only; omega) h2
    | false =>
      obtain ⟨w, st2, h3, h2⟩ := check_static hdy hd.plain hc
      obtain ⟨g1, g2, _⟩ := hd.sound fl st st2 w hl hp (by simp [hdy]) h3
      have := ih (st := st2) (by rw [g1]; exact hl) g2 h2
      rw [this, g1]

theorem slots_sound {ds : List Decoder} {Ps : List Member} (h : List.Forall₂ MemberOf ds Ps) {fl : Flags}
    {base lo : Nat} : ∀ {st st1 st2 : Stream} {vs : List PyVal}, st.data.length ≤ ssizeMax →
    st.pos ≤ ssizeMax → (∀ P ∈ Ps, P.dyn = true → st.total = base) →
    tupleCheckLoop fl base lo (ds.map wrapDyn) st = .ok st1 →
    decodeEach fl (ds.map wrapDyn) st = .ok (vs, st2) →
    st2 = { st with pos := st2.pos } ∧ st2.pos ≤ ssizeMax ∧
      Slots Ps st.data base lo st.pos vs st2.pos := by
  induction h with
  | nil =>
    intro st st1 st2 vs _ hp _ _ hd
    cases hd
    exact ⟨rfl, hp, rfl⟩
  | @cons d P ds Ps hd _ ih =>
    intro st st1 st2 vs hl hp ht hc he
    rw [List.map_cons] at hc
    rw [List.map_cons, decodeEach] at he
    obtain ⟨⟨v, stb⟩, e1, e2⟩ := bind_eq_ok.1 he
    obtain ⟨⟨vs', stc⟩, e3, e4⟩ := bind_eq_ok.1 e2
    cases e4
    have ht' : ∀ P' ∈ Ps, P'.dyn = true → st.total = base := fun P' hP => ht P' (List.mem_cons_of_mem _ hP)
    cases hdy : d.dyn with
    | true =>
      rw [wrap_true hdy] at e1
      obtain ⟨off, h3, b1, b2, h2⟩ := check_dyn hdy hc
      obtain ⟨g1, p, g2⟩ := headTail_sound hd hl h3 e1
      obtain ⟨w1, w2, h5, _⟩ := word_ok h3
      subst g1
      have hdP : P.dyn = true := by rw [← hd.dyn, hdy]
      rw [ht P (List.mem_cons_self ..) hdP] at g2
      obtain ⟨i1, i2, i3⟩ := ih (st := { st with pos := st.pos + 32 }) hl (by simp only; omega) ht' h2 e3
      refine ⟨i1, i2, st.pos + 32, ?_, i3⟩
      rw [Slot, if_pos hdP]
      exact ⟨off, p, w1, w2, b1, b2, g2, rfl⟩
    | false =>
      rw [wrap_false hdy] at e1
      obtain ⟨w, st3, h3, h2⟩ := check_static hdy hd.plain hc
      rw [e1] at h3
      cases h3
      obtain ⟨g1, g2, p, g3, g4⟩ := hd.sound fl st stb v hl hp (by simp [hdy]) e1
      have g4 := g4 hdy
      have hdP : P.dyn = false := by rw [← hd.dyn, hdy]
      have hdata : stb.data = st.data := by rw [g1]
      obtain ⟨i1, i2, i3⟩ := ih (st := stb) (by rw [hdata]; exact hl) g2 (by rw [g1]; exact ht') h2 e3
      refine ⟨by rw [i1, g1], i2, stb.pos, ?_, by rw [← hdata]; exact i3⟩
      rw [Slot, if_neg (by simp [hdP]), g4]
      exact g3

/-- Static components: there are no offsets to check. -/
theorem static_sound {ds : List Decoder} {Ps : List Member} (h : List.Forall₂ MemberOf ds Ps) {fl : Flags}
    {base lo : Nat} (hs : ∀ P ∈ Ps, P.dyn = false) : ∀ {st st2 : Stream} {vs : List PyVal},
    decodeEach fl (ds.map wrapDyn) st = .ok (vs, st2) →
    ∃ st1, tupleCheckLoop fl base lo (ds.map wrapDyn) st = .ok st1 := by
  induction h with
  | nil => intro st st2 vs _; exact ⟨st, rfl⟩
  | @cons d P ds Ps hd _ ih =>
    intro st st2 vs he
    rw [List.map_cons, decodeEach] at he
    obtain ⟨⟨v, stb⟩, e1, e2⟩ := bind_eq_ok.1 he
    obtain ⟨⟨vs', stc⟩, e3, _⟩ := bind_eq_ok.1 e2
    have hdy : d.dyn = false := by rw [hd.dyn]; exact hs P (List.mem_cons_self ..)
    obtain ⟨st1, i1⟩ := ih (fun P' hP => hs P' (List.mem_cons_of_mem _ hP)) e3
    refine ⟨st1, ?_⟩
    rw [wrap_false hdy] at e1
    rw [List.map_cons, tupleCheckLoop, wrap_false hdy, if_neg (by simp [hd.plain]), e1]
    exact i1

theorem slots_complete {ds : List Decoder} {Ps : List Member} (h : List.Forall₂ MemberOf ds Ps) {fl : Flags}
    {base lo : Nat} : ∀ {st : Stream} {vs : List PyVal} {p : Nat}, st.data.length ≤ ssizeMax →
    st.pos ≤ ssizeMax → (∀ P ∈ Ps, P.dyn = true → st.total = base) →
    Slots Ps st.data base lo st.pos vs p →
    (∃ st1, tupleCheckLoop fl base lo (ds.map wrapDyn) st = .ok st1) ∧
    decodeEach fl (ds.map wrapDyn) st = .ok (vs, { st with pos := p }) := by
  induction h with
  | nil =>
    intro st vs p _ _ _ hs
    cases vs with
    | cons => exact hs.elim
    | nil =>
      have hs : p = st.pos := hs
      subst hs
      exact ⟨⟨st, rfl⟩, rfl⟩
  | @cons d P ds Ps hd _ ih =>
    intro st vs p hl hp ht hs
    cases vs with
    | nil => exact hs.elim
    | cons v vs =>
    obtain ⟨q', h1, h2⟩ := hs
    have ht' : ∀ P' ∈ Ps, P'.dyn = true → st.total = base := fun P' hP => ht P' (List.mem_cons_of_mem _ hP)
    rw [Slot] at h1
    cases hdP : P.dyn with
    | true =>
      have hdy : d.dyn = true := by rw [hd.dyn, hdP]
      rw [if_pos hdP] at h1
      obtain ⟨off, p', w1, w2, w3, w4, w5, rfl⟩ := h1
      have hw := wordAt_decode w1 w2
      have hlen := at_length w2 (by simp)
      rw [be32_length] at hlen
      have htot := ht P (List.mem_cons_self ..) hdP
      have hcall := headTail_complete hd (fl := fl) hl hw (by rw [htot]; exact w4) (by rw [htot]; exact w5)
      obtain ⟨⟨st1, i1⟩, i2⟩ := ih (st := { st with pos := st.pos + 32 }) hl (by simp only; omega) ht' h2
      refine ⟨⟨st1, ?_⟩, ?_⟩
      · rw [List.map_cons, tupleCheckLoop, wrap_true hdy,
          if_pos (show (headTail d).isHeadTail = true from rfl), hw]
        simp only [ok_bind]
        rw [if_neg (by omega)]
        simp only [pure_eq_ok, ok_bind]
        exact i1
      · rw [List.map_cons, decodeEach, wrap_true hdy, hcall]
        simp only [ok_bind]
        rw [i2]
        rfl
    | false =>
      have hdy : d.dyn = false := by rw [hd.dyn, hdP]
      rw [if_neg (by simp [hdP])] at h1
      obtain ⟨st2, e1, e2⟩ := hd.complete fl st v q' hl hp (by simp [hdy]) h1
      obtain ⟨g1, g2, _⟩ := hd.sound fl st st2 v hl hp (by simp [hdy]) e1
      have e2 := e2 hdy
      subst e2
      have hdata : st2.data = st.data := by rw [g1]
      obtain ⟨⟨st1, i1⟩, i2⟩ := ih (st := st2) (by rw [hdata]; exact hl) g2 (by rw [g1]; exact ht')
        (by rw [hdata]; exact h2)
      refine ⟨⟨st1, ?_⟩, ?_⟩
      · rw [List.map_cons, tupleCheckLoop, wrap_false hdy, if_neg (by simp [hd.plain]), e1]
        exact i1
      · rw [List.map_cons, decodeEach, wrap_false hdy, e1]
        simp only [ok_bind]
        rw [i2, g1]
        rfl

/-- Where components end. -/
theorem slots_end {ds : List Decoder} {Ps : List Member} (h : List.Forall₂ MemberOf ds Ps)
    {base lo : Nat} {data : Bytes} (hl : data.length ≤ ssizeMax) : ∀ {q p : Nat} {vs : List PyVal},
    q ≤ ssizeMax → Slots Ps data base lo q vs p → p ≤ ssizeMax := by
  induction h with
  | nil =>
    intro q p vs hq hs
    cases vs with
    | cons => exact hs.elim
    | nil =>
      have hs : p = q := hs
      omega
  | @cons d P ds Ps hd _ ih =>
    intro q p vs hq hs
    cases vs with
    | nil => exact hs.elim
    | cons v vs =>
    obtain ⟨q', h1, h2⟩ := hs
    rw [Slot] at h1
    refine ih ?_ h2
    cases hdP : P.dyn with
    | true =>
      rw [if_pos hdP] at h1
      obtain ⟨off, p', w1, w2, w3, w4, w5, rfl⟩ := h1
      have hlen := at_length w2 (by simp)
      rw [be32_length] at hlen
      omega
    | false =>
      have hdy : d.dyn = false := by rw [hd.dyn, hdP]
      rw [if_neg (by simp [hdP])] at h1
      obtain ⟨st2, e1, e2⟩ := hd.complete (fun _ => true) ⟨data, q, [], 0⟩ v q' hl hq (by simp [hdy]) h1
      obtain ⟨_, g2, _⟩ := hd.sound (fun _ => true) _ st2 v hl hq (by simp [hdy]) e1
      rw [← e2 hdy]
      exact g2

/-! ## Tuples and arrays -/

theorem lenOfHead_parts {ds : List Decoder} {Ps : List Member} (h : List.Forall₂ MemberOf ds Ps) :
    lenOfHead (ds.map wrapDyn) = (Ps.map Member.counted).sum := by
  induction h with
  | nil => rfl
  | @cons d P ds Ps hd _ ih =>
    simp only [lenOfHead, List.map_cons, List.sum_cons] at ih ⊢
    rw [ih]
    congr 1
    cases hdy : d.dyn with
    | true =>
      rw [wrap_true hdy, Member.counted, if_pos (by rw [← hd.dyn, hdy])]
      rfl
    | false => rw [wrap_false hdy, Member.counted, if_neg (by simp [← hd.dyn, hdy]), hd.words]

theorem any_parts {ds : List Decoder} {Ps : List Member} (h : List.Forall₂ MemberOf ds Ps) :
    (ds.map wrapDyn).any (·.dyn) = Ps.any (·.dyn) := by
  induction h with
  | nil => rfl
  | @cons d P ds Ps hd _ ih =>
    rw [List.map_cons, List.any_cons, List.any_cons, ih]
    congr 1
    cases hdy : d.dyn with
    | true => rw [wrap_true hdy, ← hd.dyn, hdy]; rfl
    | false => rw [wrap_false hdy, ← hd.dyn]

theorem mem_any {Ps : List Member} {P : Member} (h : P ∈ Ps) (hP : P.dyn = true) : Ps.any (·.dyn) = true :=
  List.any_eq_true.2 ⟨P, h, hP⟩

theorem readsBy_tuple {ds : List Decoder} {Ps : List Member} (h : List.Forall₂ MemberOf ds Ps) :
    ReadsBy (mkTupleD ds) (fun _ => TupleReads Ps) := by
  have hdyn : (mkTupleD ds).dyn = Ps.any (·.dyn) := any_parts h
  refine ⟨rfl, .inl rfl, ?_, ?_⟩
  · intro fl b st st' v hl hp ht hr
    rw [hdyn] at ht
    have hr : tupleDecode fl (ds.map wrapDyn) st = .ok (v, st') := hr
    simp only [tupleDecode, tupleValidatePointers, lenOfHead_parts h] at hr
    obtain ⟨st1, h1, h2⟩ := bind_eq_ok.1 hr
    obtain ⟨st0, h3, h4⟩ := bind_eq_ok.1 h1
    have h5 := check_stays h hl hp h3
    rw [h5] at h4
    simp only [Stream.seek] at h4
    rw [if_neg (by omega)] at h4
    injection h4 with h4
    have h4 : st1 = st := h4.symm
    subst h4
    obtain ⟨⟨vs, st2⟩, h6, h7⟩ := bind_eq_ok.1 h2
    cases h7
    obtain ⟨g1, g2, g3⟩ := slots_sound h hl hp (fun P hP hd => ht (mem_any hP hd)) h3 h6
    exact ⟨g1, g2, _, ⟨vs, rfl, g3⟩, fun _ => rfl⟩
  · rintro fl b st v p hl hp ht ⟨vs, rfl, hs⟩
    rw [hdyn] at ht
    obtain ⟨⟨st1, h1⟩, h2⟩ := slots_complete h (fl := fl) hl hp (fun P hP hd => ht (mem_any hP hd)) hs
    refine ⟨{ st with pos := p }, ?_, fun _ => rfl⟩
    show tupleDecode fl (ds.map wrapDyn) st = _
    have h5 := check_stays h hl hp h1
    simp only [tupleDecode, tupleValidatePointers, lenOfHead_parts h, h1, ok_bind]
    rw [h5]
    simp only [Stream.seek]
    rw [if_neg (by omega)]
    simp only [ok_bind]
    rw [show ({ data := st.data, pos := st.pos, frames := st.frames, total := st.total } : Stream) = st from rfl, h2]
    rfl

theorem replicate_parts {d : Decoder} {P : Member} (h : MemberOf d P) : ∀ n : Nat,
    List.Forall₂ MemberOf (List.replicate n d) (List.replicate n P)
  | 0 => .nil
  | n + 1 => .cons h (replicate_parts h n)

/-- The body of the array decoders. -/
theorem slotItems_sound {d : Decoder} {P : Member} (h : MemberOf d P) {n : Nat} {fl : Flags} {st st2 : Stream}
    {vs : List PyVal} (hl : st.data.length ≤ ssizeMax) (hp : st.pos ≤ ssizeMax)
    (ht : d.dyn = true → st.total = st.pos) {st1 : Stream}
    (h1 : arrayValidatePointers (wrapDyn d) n st = .ok st1)
    (h2 : decodeN fl (wrapDyn d) n st1 = .ok (vs, st2)) :
    st2 = { st with pos := st2.pos } ∧ st2.pos ≤ ssizeMax ∧
      Slots (List.replicate n P) st.data st.pos (st.pos + 32 * n) st.pos vs st2.pos := by
  have hF := replicate_parts h n
  have ht' : ∀ P' ∈ List.replicate n P, P'.dyn = true → st.total = st.pos := fun P' hP hd => by
    rw [(List.mem_replicate.1 hP).2, ← h.dyn] at hd
    exact ht hd
  rw [decodeN_replicate, ← List.map_replicate] at h2
  cases hdy : d.dyn with
  | true =>
    simp only [arrayValidatePointers] at h1
    rw [wrap_true hdy, if_pos (show (headTail d).isHeadTail = true from rfl)] at h1
    obtain ⟨st0, h3, h4⟩ := bind_eq_ok.1 h1
    rw [arrayCheck_replicate fl, ← wrap_true hdy, ← List.map_replicate] at h3
    have h5 := check_stays hF hl hp h3
    rw [h5] at h4
    simp only [Stream.seek] at h4
    rw [if_neg (by omega)] at h4
    injection h4 with h4
    have h4 : st1 = st := h4.symm
    subst h4
    exact slots_sound hF hl hp ht' h3 h2
  | false =>
    simp only [arrayValidatePointers] at h1
    rw [wrap_false hdy, if_neg (by simp [h.plain])] at h1
    cases h1
    obtain ⟨st0, h3⟩ := static_sound hF (base := st.pos) (lo := st.pos + 32 * n) (fun P' hP => by
      rw [(List.mem_replicate.1 hP).2, ← h.dyn, hdy]) h2
    exact slots_sound hF hl hp ht' h3 h2

theorem slotItems_complete {d : Decoder} {P : Member} (h : MemberOf d P) {n : Nat} {fl : Flags} {st : Stream}
    {vs : List PyVal} (hl : st.data.length ≤ ssizeMax) (hp : st.pos ≤ ssizeMax)
    (ht : d.dyn = true → st.total = st.pos) {p : Nat}
    (hs : Slots (List.replicate n P) st.data st.pos (st.pos + 32 * n) st.pos vs p) :
    arrayValidatePointers (wrapDyn d) n st = .ok st ∧
    decodeN fl (wrapDyn d) n st = .ok (vs, { st with pos := p }) := by
  have hF := replicate_parts h n
  have ht' : ∀ P' ∈ List.replicate n P, P'.dyn = true → st.total = st.pos := fun P' hP hd => by
    rw [(List.mem_replicate.1 hP).2, ← h.dyn] at hd
    exact ht hd
  obtain ⟨⟨st1, h1⟩, h2⟩ := slots_complete hF (fl := fl) hl hp ht' hs
  have h5 := check_stays hF hl hp h1
  rw [List.map_replicate] at h1 h2
  refine ⟨?_, by rw [decodeN_replicate, h2]⟩
  simp only [arrayValidatePointers]
  cases hdy : d.dyn with
  | true =>
    rw [wrap_true hdy] at h1
    rw [wrap_true hdy, if_pos (show (headTail d).isHeadTail = true from rfl), arrayCheck_replicate fl, h1,
      ok_bind, h5]
    simp only [Stream.seek]
    rw [if_neg (by omega)]
  | false =>
    rw [wrap_false hdy, if_neg (by simp [h.plain])]
    rfl

theorem wrapItem_some {d : Decoder} {dy : Bool} (h : d.isDynamic = some dy) :
    wrapItem d = .ok (wrapDyn d) ∧ d.dyn = dy ∧ (wrapDyn d).isDynamic = some dy := by
  have hd : d.dyn = dy := by rw [Decoder.dyn, h]; rfl
  refine ⟨?_, hd, ?_⟩
  · rw [wrapItem, h, wrapDyn, hd]
  · cases dy with
    | true => rw [wrap_true hd]; rfl
    | false => rw [wrap_false hd, h]

theorem readsBy_sized {d : Decoder} {dy : Bool} {P : Member} (hi : d.isDynamic = some dy) (h : MemberOf d P)
    (k : Nat) : ∃ D, mkSizedArrayD k d = .ok D ∧ D.isDynamic = some dy ∧ D.arraySize.getD 1 = k ∧
      D.strict = .own true ∧ ReadsBy D (fun _ => SizedReads k P) := by
  obtain ⟨h1, h2, h3⟩ := wrapItem_some hi
  refine ⟨⟨(wrapDyn d).isDynamic, false, some k, .own true, fun fl _ st => sizedArrayDecode fl (wrapDyn d) k st⟩, by rw [mkSizedArrayD, h1]; rfl, h3, rfl, rfl,
      rfl, .inl rfl, ?_, ?_⟩
  · intro fl b st st' v hl hp ht hr
    have ht : d.dyn = true → st.total = st.pos := by
      rw [Decoder.dyn] at ht
      simp only [h3] at ht
      rwa [h2]
    have hr : sizedArrayDecode fl (wrapDyn d) k st = .ok (v, st') := hr
    simp only [sizedArrayDecode] at hr
    obtain ⟨st1, e1, e2⟩ := bind_eq_ok.1 hr
    obtain ⟨⟨vs, st2⟩, e3, e4⟩ := bind_eq_ok.1 e2
    cases e4
    obtain ⟨g1, g2, g3⟩ := slotItems_sound h hl hp ht e1 e3
    exact ⟨g1, g2, _, ⟨vs, rfl, g3⟩, fun _ => rfl⟩
  · rintro fl b st v p hl hp ht ⟨vs, rfl, hs⟩
    have ht : d.dyn = true → st.total = st.pos := by
      rw [Decoder.dyn] at ht
      simp only [h3] at ht
      rwa [h2]
    obtain ⟨g1, g2⟩ := slotItems_complete h (fl := fl) hl hp ht hs
    refine ⟨{ st with pos := p }, ?_, fun _ => rfl⟩
    show sizedArrayDecode fl (wrapDyn d) k st = _
    simp only [sizedArrayDecode, g1, ok_bind, g2]
    rfl

theorem readsBy_dynamic {d : Decoder} {dy : Bool} {P : Member} (hi : d.isDynamic = some dy) (h : MemberOf d P) :
    ∃ D, mkDynamicArrayD d = .ok D ∧ D.isDynamic = some true ∧ D.arraySize.getD 1 = 1 ∧
      D.strict = .own true ∧ ReadsBy D (fun _ => DynamicReads P) := by
  obtain ⟨h1, h2, h3⟩ := wrapItem_some hi
  refine ⟨⟨some true, false, none, .own true, fun fl _ st => dynamicArrayDecode fl (wrapDyn d) st⟩, by rw [mkDynamicArrayD, h1]; rfl, rfl, rfl, rfl,
      rfl, .inl rfl, ?_, ?_⟩
  · intro fl b st st' v hl hp ht hr
    have ht : st.total = st.pos := ht rfl
    have hr : dynamicArrayDecode fl (wrapDyn d) st = .ok (v, st') := hr
    simp only [dynamicArrayDecode] at hr
    obtain ⟨⟨n, st1⟩, e1, e2⟩ := bind_eq_ok.1 hr
    obtain ⟨w1, w2, w3, rfl⟩ := word_ok e1
    simp only [Stream.pushFrame, Stream.seekInFrame, Stream.seek, Nat.add_zero] at e2
    rw [if_neg (by omega), ok_bind] at e2
    obtain ⟨st2, e3, e4⟩ := bind_eq_ok.1 e2
    obtain ⟨⟨vs, st3⟩, e5, e6⟩ := bind_eq_ok.1 e4
    obtain ⟨st4, e7, e8⟩ := bind_eq_ok.1 e6
    cases e8
    obtain ⟨g1, g2, g3⟩ := slotItems_sound h (st := ⟨st.data, st.total + 32, (32, st.pos + 32) :: st.frames, st.total + 32⟩)
      hl (by simp only; omega) (fun _ => rfl) e3 e5
    rw [g1] at e7
    simp only [Stream.popFrame, Stream.seek] at e7
    rw [if_neg (by omega)] at e7
    injection e7 with e7
    subst e7
    simp only at g3
    rw [ht] at g3
    refine ⟨?_, by simp only; omega, st3.pos, ⟨n, w1, w2, vs, rfl, g3⟩, fun hd => by cases hd⟩
    refine stream_eq rfl rfl rfl ?_
    show st.total + 32 - 32 = st.total
    omega
  · rintro fl b st v p hl hp ht ⟨n, w1, w2, vs, rfl, hs⟩
    have ht : st.total = st.pos := ht rfl
    have hlen := at_length w2 (by simp)
    rw [be32_length] at hlen
    obtain ⟨g1, g2⟩ := slotItems_complete h (fl := fl)
      (st := ⟨st.data, st.total + 32, (32, st.pos + 32) :: st.frames, st.total + 32⟩)
      hl (by simp only; omega) (fun _ => rfl) (by rw [ht]; exact hs)
    refine ⟨{ st with pos := st.pos + 32, total := st.total + 32 - 32 }, ?_, fun hd => by cases hd⟩
    show dynamicArrayDecode fl (wrapDyn d) st = _
    simp only [dynamicArrayDecode, wordAt_decode w1 w2, ok_bind, Stream.pushFrame, Stream.seekInFrame,
      Stream.seek, Nat.add_zero]
    rw [if_neg (by omega)]
    simp only [ok_bind, g1, g2, Stream.popFrame, Stream.seek]
    rw [if_neg (by omega)]
    rfl

/-! ## Lookups -/

section
variable [Ext]

theorem decoderIs_array {g : Registry} {s w : TypeStr} {dim : Option Nat} (hs : Wellformed s)
    (hw : DerivesDims [dim] w) (hn : arrNumsOk [dim] = true) {d D : Decoder} (h : DecoderIs g s d)
    (ha : OnlyMatch g.decoders (s ++ w) (.cls (arrayPlan mkArrayD))) (hD : mkArrayD dim d = .ok D)
    (hst : D.strict = .own true) : DecoderIs g (s ++ w) D := by
  obtain ⟨_, hplan⟩ := array_ask hs hw hn
  obtain ⟨m, h2⟩ := h
  refine ⟨m + 1, fun f hf => ?_⟩
  obtain ⟨f, rfl⟩ : ∃ f', f = f' + 1 := ⟨f - 1, by omega⟩
  have h2 : getDecoderFuel g.decoders f s true = .ok d := h2 f (by omega)
  show getDecoderFuel g.decoders (f + 1) (s ++ w) true = _
  rw [serves_exec_dec ha, hplan]
  simp only [Plan.exec, h2, hD, ok_bind, own_setStrict hst]
  rfl

theorem decoderIs_tuple {g : Registry} {ss : List TypeStr} {s : TypeStr} (h : Joined ss s)
    (hw : ∀ x ∈ ss, Wellformed x) {ds : List Decoder} (hd : List.Forall₂ (DecoderIs g) ss ds)
    (ha : OnlyMatch g.decoders (t!"(" ++ s ++ t!")") (.cls (tuplePlan mkTupleD))) :
    DecoderIs g (t!"(" ++ s ++ t!")") (mkTupleD ds) := by
  obtain ⟨_, hplan⟩ := tuple_ask h hw
  obtain ⟨m, h2⟩ := comesTo_all (look := fun n s => getDecoderFuel g.decoders n s true) hd
  refine ⟨m + 1, fun f hf => ?_⟩
  obtain ⟨f, rfl⟩ : ∃ f', f = f' + 1 := ⟨f - 1, by omega⟩
  show getDecoderFuel g.decoders (f + 1) _ true = _
  rw [serves_exec_dec ha, hplan, exec_askAll_ok (h2 f (by omega))]
  simp only [Plan.exec, ok_bind, own_setStrict (d := mkTupleD ds) rfl]
  rfl

/-- What is shown of a type string with a reader. -/
def ReadOk (g : Registry) (s : TypeStr) (dy : Option Bool) (n : Nat) (A : Bool → Reader) : Prop :=
  ∃ d, Wellformed s ∧ DecoderIs g s d ∧ d.isDynamic = dy ∧ d.arraySize.getD 1 = n ∧ ReadsBy d A

def MembersOk (g : Registry) (s : TypeStr) (Ps : List Member) : Prop :=
  ∃ ss ds, Joined ss s ∧ (∀ x ∈ ss, Wellformed x) ∧ List.Forall₂ (DecoderIs g) ss ds ∧
    List.Forall₂ MemberOf ds Ps

theorem readAs_ok {g : Registry} {s : TypeStr} {dy : Option Bool} {n : Nat} {A : Bool → Reader}
    (h : ReadAs g s dy n A) : ReadOk g s dy n A := by
  refine ReadAs.rec (motive_1 := fun s dy n A _ => ReadOk g s dy n A)
    (motive_2 := fun s Ps _ => MembersOk g s Ps) ?_ ?_ ?_ ?_ ?_ ?_ h
  · intro s d A h1 h2 h3
    exact ⟨d, h1, h2, rfl, rfl, h3⟩
  · rintro s dy n k A _ hk hno ha ⟨d, h1, h2, h3, h4, h5⟩
    have hw := dims_one hk
    have hno : arrNumsOk [some k] = true := by simp [arrNumsOk, hno]
    rw [List.append_assoc, List.append_assoc, ← List.append_assoc (t!"[")] at ha ⊢
    obtain ⟨D, g1, g2, g3, g4, g5⟩ := readsBy_sized h3
      (partOf_inner h5 (dy := dy) (by simp [Decoder.dyn, h3]) h4) k
    exact ⟨D, (array_ask h1 hw hno).1, decoderIs_array h1 hw hno h2 ha g1 g4, g2, g3, g5⟩
  · rintro s dy n A _ ha ⟨d, h1, h2, h3, h4, h5⟩
    have hw : DerivesDims [none] t!"[]" := DerivesDims.dynamic DerivesDims.nil
    have hno : arrNumsOk [none] = true := rfl
    obtain ⟨D, g1, g2, g3, g4, g5⟩ := readsBy_dynamic h3
      (partOf_inner h5 (dy := dy) (by simp [Decoder.dyn, h3]) h4)
    exact ⟨D, (array_ask h1 hw hno).1, decoderIs_array h1 hw hno h2 ha g1 g4, g2, g3, g5⟩
  · rintro s Ps _ ha ⟨ss, ds, h1, h2, h3, h4⟩
    refine ⟨_, (tuple_ask h1 h2).1, decoderIs_tuple h1 h2 h3 ha, ?_, rfl, readsBy_tuple h4⟩
    rw [← any_parts h4]
    rfl
  · rintro s dy n A _ ⟨d, h1, h2, h3, h4, h5⟩
    refine ⟨[s], [d], .one, ?_, .cons h2 .nil, .cons (partOf_inner h5 (by rw [Decoder.dyn, h3]) h4) .nil⟩
    intro x hx; rw [List.mem_singleton.1 hx]; exact h1
  · rintro s s' dy n A Ps _ _ ⟨d, h1, h2, h3, h4, h5⟩ ⟨ss, ds, g1, g2, g3, g4⟩
    refine ⟨s :: ss, d :: ds, .cons g1, ?_, .cons h2 g3, .cons (partOf_inner h5 (by rw [Decoder.dyn, h3]) h4) g4⟩
    intro x hx
    rcases List.mem_cons.1 hx with rfl | hx
    · exact h1
    · exact g2 x hx

theorem readArgs_ok {g : Registry} {strict : Bool} {types : List TypeStr} {Ps : List Member}
    (h : ReadArgs g strict types Ps) : ∃ ds n, List.Forall₂ MemberOf ds Ps ∧
      ∀ f, n ≤ f → mapPyM (fun s => getDecoderFuel g.decoders f s strict) types = .ok ds := by
  induction h with
  | nil => exact ⟨[], 0, .nil, fun _ _ => rfl⟩
  | cons h1 _ ih =>
    obtain ⟨ds, n, hp, hn⟩ := ih
    obtain ⟨d, _, ⟨m, hm⟩, h3, h4, h5⟩ := readAs_ok h1
    refine ⟨d.setStrict strict :: ds, max n m, .cons (partOf_top h5 (by rw [Decoder.dyn, h3]) h4 strict) hp,
      fun f hf => ?_⟩
    have g2 := hn f (by omega)
    have g4 := decFuel_strict (hm f (by omega)) strict
    simp only [mapPyM, g2, g4, ok_bind]
    rfl

/-- A call of `decode`. -/
theorem readArgs_decode {g : Registry} {strict : Bool} {types : List TypeStr} {Ps : List Member}
    (h : ReadArgs g strict types Ps) {arg : PyVal} {data : Bytes} (hb : validateBytesParam arg = .ok data)
    (hd : Fits data) : ∃ n, ∀ f, n ≤ f → ∀ fl v,
      decodeAt g fl f types arg strict = .ok v ↔ ∃ p, TupleReads Ps data 0 v p := by
  obtain ⟨ds, n, h1, h2⟩ := readArgs_ok h
  refine ⟨n, fun f hf fl v => ?_⟩
  unfold decodeAt
  rw [hb]
  simp only [ok_bind, h2 f hf]
  have hR := readsBy_tuple h1
  constructor
  · intro h3
    obtain ⟨⟨v', st⟩, h4, h5⟩ := bind_eq_ok.1 h3
    cases h5
    obtain ⟨_, _, p, h6, _⟩ := hR.sound fl true (Stream.init data) st _ hd (Nat.zero_le _) (fun _ => rfl) h4
    exact ⟨p, h6⟩
  · rintro ⟨p, h3⟩
    obtain ⟨st, h4, _⟩ := hR.complete fl true (Stream.init data) v p hd (Nat.zero_le _) (fun _ => rfl) h3
    have h4 : (mkTupleD ds).call fl (Stream.init data) = .ok (v, st) := h4
    rw [h4]
    rfl

end

/-! ## The elementary types of the library -/

theorem reads_elementary {t : Ty} (he : t.elementary = true) (b : Bool) (d : Bytes) (q : Nat) (x : Val) :
    Reads codeHead b t d q x ↔ Reads (fun _ => 0) b t d q x := by
  cases t <;> first | (cases he; done) | (cases x <;> simp only [Reads])

theorem elementary_static {t : Ty} (he : t.elementary = true) (hd : t.dynamic = false) (b b' : Bool) (d : Bytes)
    (q : Nat) (x : Val) : Reads (fun _ => 0) b t d q x ↔ Reads (fun _ => 0) b' t d q x := by
  cases t <;> first | (cases he; done) | (cases hd; done) | (cases x <;> simp only [Reads])

theorem elementary_reads {t : Ty} (hv : t.Valid) (he : t.elementary = true) :
    (decOf t).isDynamic = some t.dynamic ∧ (decOf t).arraySize.getD 1 = 1 ∧
      ReadsBy (decOf t) (ElementaryReads t) := by
  have hg := decOf_good t
  have hdyn : (decOf t).dyn = t.dynamic := by simp [Decoder.dyn, hg.isDyn]
  have hsz : t.dynamic = false → t.size = 32 := by
    intro hd
    cases t <;> first | (cases he; done) | (cases hd; done) | rfl
  refine ⟨hg.isDyn, ?_, hg.notHT, ?_, ?_, ?_⟩
  · cases t <;> first | (cases he; done) | rfl
  · cases hd : t.dynamic with
    | true => exact .inr ⟨by rw [hdyn, hd], by cases t <;> first | (cases he; done) | (cases hd; done) | rfl⟩
    | false =>
      left
      funext d q v p
      simp only [ElementaryReads, elementary_static he hd false true]
  · intro fl b st st' v hl hp ht hr
    rw [hdyn] at ht ⊢
    have hrun := (decOf_strict t b).run fl st hl hp ht
    rw [← run_setStrict, hr] at hrun
    cases hx : posDec b t st.data st.pos with
    | error e => rw [hx] at hrun; cases hrun
    | ok x =>
      rw [hx] at hrun
      obtain ⟨st1, h1, h2, h3, h4, h5, h6⟩ := hrun
      injection h1 with h1
      injection h1 with h7 h8
      subst h7 h8
      have hR := (reads_elementary he b _ _ _).1 ((posDec_iff t hv b st.data hl st.pos x).1 hx)
      refine ⟨stream_eq h2 rfl h3 h4, h5, st.pos + 32, ⟨x, hR, rfl, fun _ => rfl⟩, fun hd => ?_⟩
      rw [h6 hd, hsz hd]
  · rintro fl b st v p hl hp ht ⟨x, h1, rfl, h3⟩
    rw [hdyn] at ht ⊢
    have hrun := (decOf_strict t b).run fl st hl hp ht
    rw [← run_setStrict, (posDec_iff t hv b st.data hl st.pos x).2 ((reads_elementary he b _ _ _).2 h1)] at hrun
    obtain ⟨st1, g1, _, _, _, _, g6⟩ := hrun
    exact ⟨st1, g1, fun hd => by rw [g6 hd, hsz hd, h3 hd]⟩

end EthAbi
