import Verif.Lemmas.ReadsFacts
import Verif.Lemmas.Registered
import Verif.Lemmas.Api
import Verif.Spec.Custom

/-! # Arrays and tuples of coders that belong together -/
namespace EthAbi
open Spec

/-- The decoder `d` reads the element `x` back as `v'`. -/
structure Back (x : Elem) (d : Decoder) (v' : PyVal) : Prop where
  dyn : x.1 = d.dyn
  plain : d.isHeadTail = false
  pos : 0 < x.2.length
  back : ∀ fl strict (st : Stream), st.data.length ≤ ssizeMax → At st.data st.pos x.2 →
    (d.dyn = true → st.total = st.pos) →
    ∃ p, d.run fl strict st = .ok (v', { st with pos := p }) ∧ p ≤ ssizeMax ∧
      (d.dyn = false → p = st.pos + x.2.length)

/-- Elements, decoders and values, one by one. -/
inductive Backs : List Elem → List Decoder → List PyVal → Prop where
  | nil : Backs [] [] []
  | cons {x : Elem} {d : Decoder} {v : PyVal} {xs : List Elem} {ds : List Decoder} {vs : List PyVal} :
      Back x d v → Backs xs ds vs → Backs (x :: xs) (d :: ds) (v :: vs)

theorem wordAt_decode {st : Stream} {n : Nat} (hl : n < 2 ^ 256) (h : At st.data st.pos (be32 n)) :
    decodeUint256 st = .ok (n, { st with pos := st.pos + 32 }) := by
  have hw := wordAt_iff.2 ⟨hl, h⟩
  rcases decodeUint256_spec st with ⟨m, h1, _, h3⟩ | ⟨h1, _⟩
  · rw [hw] at h1; injection h1 with h1; subst h1; exact h3
  · rw [hw] at h1; cases h1

theorem ssize_lt : ssizeMax < 2 ^ 256 := by decide

/-- The head and the tail of the first of some elements. -/
theorem at_cons {d : Bytes} {q base off : Nat} {dy : Bool} {b : Bytes} {xs : List Elem}
    (h1 : At d q (heads off ((dy, b) :: xs))) (h2 : At d (base + off) (tails ((dy, b) :: xs))) :
    (if dy then At d q (be32 off) ∧ At d (base + off) b else At d q b) ∧
    At d (q + (if dy then 32 else b.length)) (heads (off + (if dy then b.length else 0)) xs) ∧
    At d (base + (off + (if dy then b.length else 0))) (tails xs) := by
  cases dy with
  | true =>
    simp only [heads, tails, if_true] at h1 h2 ⊢
    obtain ⟨h1, h3⟩ := at_append.1 h1
    obtain ⟨h2, h4⟩ := at_append.1 h2
    rw [be32_length] at h3
    exact ⟨⟨h1, h2⟩, h3, by rw [← Nat.add_assoc]; exact h4⟩
  | false =>
    simp only [heads, tails, Bool.false_eq_true, if_false, List.nil_append, Nat.add_zero] at h1 h2 ⊢
    obtain ⟨h1, h3⟩ := at_append.1 h1
    exact ⟨h1, h3, h2⟩

theorem decodeEach_back {xs : List Elem} {ds : List Decoder} {vs : List PyVal} (h : Backs xs ds vs)
    (fl : Flags) (base : Nat) : ∀ (off : Nat) (st : Stream), st.data.length ≤ ssizeMax →
    At st.data st.pos (heads off xs) → At st.data (base + off) (tails xs) →
    (∀ x ∈ xs, x.1 = true → st.total = base) →
    decodeEach fl (ds.map wrapDyn) st = .ok (vs, { st with pos := st.pos + headSize xs }) := by
  induction h with
  | nil => intro off st _ _ _ _; rfl
  | @cons x d v xs ds vs hb _ ih =>
    intro off st hl h1 h2 ht
    obtain ⟨dy, b⟩ := x
    have hdy : dy = d.dyn := hb.dyn
    have hpos : 0 < b.length := hb.pos
    obtain ⟨h3, h4, h5⟩ := at_cons h1 h2
    simp only [List.map_cons, decodeEach]
    have htl : ∀ x ∈ xs, x.1 = true → st.total = base := fun x hx => ht x (List.mem_cons_of_mem _ hx)
    cases dy with
    | true =>
      simp only [if_true] at h3 h4 h5
      have hlen := at_length h3.2 hpos
      have hlt := ssize_lt
      rw [wrapDyn, ← hdy, if_pos rfl]
      have htot : st.total = base := ht _ (List.mem_cons_self ..) rfl
      obtain ⟨p, hp1, hp2, _⟩ := hb.back fl (d.isStrict fl)
        ⟨st.data, base + off, (off, st.pos + 32) :: st.frames, base + off⟩ hl h3.2 (fun _ => rfl)
      have hlen1 := at_length h3.1 (by simp)
      rw [be32_length] at hlen1
      have hc : (headTail d).call fl st = .ok (v, { st with pos := st.pos + 32 }) := by
        simp only [Decoder.call, headTail, wordAt_decode (by omega) h3.1, ok_bind, Stream.pushFrame,
          Stream.seekInFrame, Stream.seek, Nat.add_zero, htot]
        rw [if_neg (by omega), ok_bind]
        simp only at hp1 ⊢
        rw [hp1]
        simp only [ok_bind, Stream.popFrame, Stream.seek]
        rw [if_neg (by omega), ok_bind, pure_eq_ok]
        congr 2
        refine stream_eq rfl rfl rfl ?_
        show base + off - off = base
        omega
      rw [hc]
      simp only [ok_bind]
      rw [ih (off + b.length) ⟨st.data, st.pos + 32, st.frames, st.total⟩ hl h4 h5 htl]
      simp only [ok_bind, pure_eq_ok, headSize, if_true, Nat.add_assoc]
    | false =>
      simp only [Bool.false_eq_true, if_false, Nat.add_zero] at h3 h4 h5
      rw [wrapDyn, ← hdy, if_neg (by simp)]
      obtain ⟨p, hp1, hp2, hp3⟩ := hb.back fl (d.isStrict fl) st hl h3 (by rw [← hdy]; simp)
      have hp3 := hp3 hdy.symm
      subst hp3
      rw [Decoder.call, hp1]
      simp only [ok_bind]
      rw [ih off ⟨st.data, st.pos + b.length, st.frames, st.total⟩ hl h4 h5 htl]
      simp only [ok_bind, pure_eq_ok, headSize, Bool.false_eq_true, if_false, Nat.add_assoc]

theorem checkLoop_back {xs : List Elem} {ds : List Decoder} {vs : List PyVal} (h : Backs xs ds vs)
    (fl : Flags) (base lo : Nat) : ∀ (off : Nat) (st : Stream), st.data.length ≤ ssizeMax →
    (xs.any (·.1) = true → lo ≤ base + off) →
    At st.data st.pos (heads off xs) → At st.data (base + off) (tails xs) →
    tupleCheckLoop fl base lo (ds.map wrapDyn) st = .ok { st with pos := st.pos + headSize xs } := by
  induction h with
  | nil => intro off st _ _ _ _; rfl
  | @cons x d v xs ds vs hb _ ih =>
    intro off st hl hlo h1 h2
    obtain ⟨dy, b⟩ := x
    have hdy : dy = d.dyn := hb.dyn
    have hpos : 0 < b.length := hb.pos
    obtain ⟨h3, h4, h5⟩ := at_cons h1 h2
    simp only [List.map_cons, tupleCheckLoop]
    cases dy with
    | true =>
      simp only [if_true] at h3 h4 h5
      have hlen := at_length h3.2 hpos
      have hlt := ssize_lt
      have hw : wrapDyn d = headTail d := by rw [wrapDyn, ← hdy, if_pos rfl]
      have hht : (headTail d).isHeadTail = true := rfl
      have hlo : lo ≤ base + off := hlo rfl
      simp only [hw, hht, if_true, wordAt_decode (by omega) h3.1, ok_bind]
      rw [if_neg (by omega)]
      simp only [pure_eq_ok, ok_bind]
      rw [ih (off + b.length) ⟨st.data, st.pos + 32, st.frames, st.total⟩ hl (fun _ => by omega) h4 h5]
      simp only [headSize, if_true, Nat.add_assoc]
    | false =>
      simp only [Bool.false_eq_true, if_false, Nat.add_zero] at h3 h4 h5
      have hw : wrapDyn d = d := by rw [wrapDyn, ← hdy, if_neg (by simp)]
      obtain ⟨p, hp1, hp2, hp3⟩ := hb.back fl (d.isStrict fl) st hl h3 (by rw [← hdy]; simp)
      have hp3 := hp3 hdy.symm
      subst hp3
      simp only [hw, hb.plain, Bool.false_eq_true, if_false, Decoder.call, hp1, ok_bind, pure_eq_ok]
      rw [ih off ⟨st.data, st.pos + b.length, st.frames, st.total⟩ hl hlo h4 h5]
      simp only [headSize, Bool.false_eq_true, if_false, Nat.add_assoc]

/-- What the elements of static coders need for the pointer check of `TupleDecoder`. -/
inductive Wide : List Elem → List Decoder → Prop where
  | nil : Wide [] []
  | cons {x : Elem} {d : Decoder} {xs : List Elem} {ds : List Decoder} :
      (d.dyn = false → 32 ≤ x.2.length ∧ 32 * d.arraySize.getD 1 ≤ x.2.length) → Wide xs ds →
      Wide (x :: xs) (d :: ds)

theorem lenOfHead_back {xs : List Elem} {ds : List Decoder} {vs : List PyVal} (h : Backs xs ds vs)
    (hw : Wide xs ds) : 32 * lenOfHead (ds.map wrapDyn) ≤ headSize xs := by
  induction h with
  | nil => exact Nat.le_refl 0
  | @cons x d v xs ds vs hb _ ih =>
    cases hw with
    | cons hs hw =>
    replace ih := ih hw
    obtain ⟨dy, b⟩ := x
    have hdy : dy = d.dyn := hb.dyn
    simp only [lenOfHead, List.map_cons, List.sum_cons] at ih ⊢
    rw [headSize]
    cases dy with
    | true =>
      have hw : wrapDyn d = headTail d := by rw [wrapDyn, ← hdy, if_pos rfl]
      have hs : (headTail d).arraySize = none := rfl
      simp only [hw, hs, Option.getD_none, if_true]
      omega
    | false =>
      have hw : wrapDyn d = d := by rw [wrapDyn, ← hdy, if_neg (by simp)]
      have := (hs hdy.symm).2
      simp only [hw, Bool.false_eq_true, if_false] at this ⊢
      omega

/-- `TupleDecoder.decode` at the layout of some elements. -/
theorem tupleDecode_back {xs : List Elem} {ds : List Decoder} {vs : List PyVal} (h : Backs xs ds vs)
    (hlen : xs.any (·.1) = true → 32 * lenOfHead (ds.map wrapDyn) ≤ headSize xs)
    (fl : Flags) (st : Stream) (hl : st.data.length ≤ ssizeMax) (hp : st.pos ≤ ssizeMax)
    (hat : At st.data st.pos (layout xs)) (ht : ∀ x ∈ xs, x.1 = true → st.total = st.pos) :
    tupleDecode fl (ds.map wrapDyn) st =
      .ok (.tuple vs, { st with pos := st.pos + headSize xs }) := by
  obtain ⟨h1, h2⟩ := at_append.1 hat
  rw [heads_length] at h2
  simp only [tupleDecode, tupleValidatePointers]
  rw [checkLoop_back h fl st.pos _ (headSize xs) st hl (fun ha => by have := hlen ha; omega) h1 h2]
  simp only [ok_bind, Stream.seek]
  rw [if_neg (by omega), ok_bind]
  have := decodeEach_back h fl st.pos (headSize xs) st hl h1 h2 ht
  rw [show ({ data := st.data, pos := st.pos, frames := st.frames, total := st.total } : Stream) = st from rfl,
    this]
  rfl

/-! ## Arrays as tuples of equal components -/

theorem decodeN_replicate (fl : Flags) (W : Decoder) : ∀ (n : Nat) (st : Stream),
    decodeN fl W n st = decodeEach fl (List.replicate n W) st
  | 0, _ => rfl
  | n + 1, st => by
    simp only [decodeN, List.replicate_succ, decodeEach]
    cases W.call fl st with
    | error e => rfl
    | ok p =>
      simp only [ok_bind]
      rw [decodeN_replicate fl W n]

theorem arrayCheck_replicate (fl : Flags) (base lo : Nat) (d : Decoder) : ∀ (n : Nat) (st : Stream),
    arrayCheckLoop base lo n st = tupleCheckLoop fl base lo (List.replicate n (headTail d)) st
  | 0, _ => rfl
  | n + 1, st => by
    have hht : (headTail d).isHeadTail = true := rfl
    simp only [arrayCheckLoop, List.replicate_succ, tupleCheckLoop, hht, if_true]
    cases decodeUint256 st with
    | error e => rfl
    | ok p =>
      simp only [ok_bind]
      split
      · rfl
      · simp only [pure_eq_ok, ok_bind]
        rw [arrayCheck_replicate fl base lo d n]

theorem headSize_dynamic {xs : List Elem} (h : ∀ x ∈ xs, x.1 = true) : headSize xs = 32 * xs.length := by
  induction xs with
  | nil => rfl
  | cons x xs ih =>
    obtain ⟨dy, b⟩ := x
    have hd : dy = true := h _ (List.mem_cons_self ..)
    subst hd
    rw [headSize, ih fun y hy => h y (List.mem_cons_of_mem _ hy), List.length_cons]
    simp only [if_true]
    omega

theorem backs_length {xs : List Elem} {ds : List Decoder} {vs : List PyVal} (h : Backs xs ds vs) :
    xs.length = ds.length ∧ vs.length = ds.length := by
  induction h with
  | nil => exact ⟨rfl, rfl⟩
  | cons _ _ ih => simp only [List.length_cons, ih.1, ih.2]; trivial

theorem backs_dyn {xs : List Elem} {d : Decoder} {n : Nat} {vs : List PyVal}
    (h : Backs xs (List.replicate n d) vs) : ∀ x ∈ xs, x.1 = d.dyn := by
  generalize hds : List.replicate n d = ds at h
  induction h generalizing n with
  | nil => intro x hx; cases hx
  | @cons x d' v xs ds vs hb _ ih =>
    cases n with
    | zero => cases hds
    | succ n =>
      rw [List.replicate_succ] at hds
      injection hds with h1 h2
      subst h1
      intro y hy
      rcases List.mem_cons.1 hy with rfl | hy
      · exact hb.dyn
      · exact ih h2 y hy

/-- The body of the array decoders at the layout of the elements. -/
theorem arrayBody_back {xs : List Elem} {d : Decoder} {n : Nat} {vs : List PyVal}
    (h : Backs xs (List.replicate n d) vs) (hpl : d.isHeadTail = false) (fl : Flags) (st : Stream)
    (hl : st.data.length ≤ ssizeMax) (hp : st.pos ≤ ssizeMax) (hat : At st.data st.pos (layout xs))
    (ht : d.dyn = true → st.total = st.pos) :
    (arrayValidatePointers (if d.dyn then headTail d else d) n st >>=
      decodeN fl (if d.dyn then headTail d else d) n) =
      .ok (vs, { st with pos := st.pos + headSize xs }) := by
  have hxs := backs_dyn h
  have hn : xs.length = n := by rw [(backs_length h).1, List.length_replicate]
  obtain ⟨h1, h2⟩ := at_append.1 hat
  rw [heads_length] at h2
  have hmap : (List.replicate n d).map wrapDyn = List.replicate n (if d.dyn then headTail d else d) := by
    rw [List.map_replicate, wrapDyn]
  have hdec := decodeEach_back h fl st.pos (headSize xs) st hl h1 h2
    (fun x hx hx1 => ht (by rw [← hxs x hx, hx1]))
  rw [hmap] at hdec
  cases hd : d.dyn with
  | true =>
    rw [hd] at hdec hmap
    simp only [if_true] at hdec hmap ⊢
    have hht : (headTail d).isHeadTail = true := rfl
    have hH := headSize_dynamic (fun x hx => (hxs x hx).trans hd)
    have hchk := checkLoop_back h fl st.pos (st.pos + 32 * n) (headSize xs) st hl (fun _ => by omega) h1 h2
    rw [hmap] at hchk
    simp only [arrayValidatePointers, hht, if_true, arrayCheck_replicate fl st.pos _ d, hchk, ok_bind,
      Stream.seek]
    rw [if_neg (by omega), ok_bind, decodeN_replicate]
    exact hdec
  | false =>
    rw [hd] at hdec
    simp only [Bool.false_eq_true, if_false] at hdec ⊢
    simp only [arrayValidatePointers, hpl, Bool.false_eq_true, if_false, pure_eq_ok, ok_bind]
    rw [decodeN_replicate]
    exact hdec

/-! ## What a successful call of an encoder did -/

theorem tupleEncode_inv [Ext] {es : List Encoder} {v : PyVal} {B : Bytes} (h : tupleEncode es v = .ok B) :
    ∃ vs bs, asListLike? v = some vs ∧ vs.length = es.length ∧ callAll es vs = .ok bs ∧
      B = layout (elems es bs) := by
  have h0 := h
  simp only [tupleEncode, bind_eq_ok] at h
  obtain ⟨_, hval, h⟩ := h
  cases hv : asListLike? v with
  | none => rw [hv] at h; cases h
  | some vs =>
    rw [hv] at h
    have hlen : vs.length = es.length := by
      simp only [tupleValidate, hv, invalidate_eq] at hval
      split at hval
      · cases hval
      · next hn => exact not_not.1 hn
    simp only [tupleChunks_eq, bind_eq_ok] at h
    obtain ⟨_, hc, _⟩ := h
    cases hbs : callAll es vs with
    | error e =>
      rw [hbs] at hc
      obtain ⟨_, hc, _⟩ := hc
      cases hc
    | ok bs =>
      refine ⟨vs, bs, rfl, hlen, hbs, ?_⟩
      rcases tupleEncode_spec hv hval hbs with h1 | ⟨_, h1, _⟩
      · rw [h1] at h0; injection h0 with h0; exact h0.symm
      · rw [h1] at h0; cases h0

theorem encodeElements_inv [Ext] {validate : PyVal → PyM Unit} {item : Encoder} {v : PyVal} {B : Bytes}
    (h : encodeElements validate item v = .ok B) :
    ∃ vs bs, asListLike? v = some vs ∧ validate v = .ok () ∧
      callAll (vs.map fun _ => item) vs = .ok bs ∧ B = layout (elems (vs.map fun _ => item) bs) := by
  have h0 := h
  have hval := encodeElements_val h
  simp only [encodeElements, hval, ok_bind] at h
  cases hv : asListLike? v with
  | none => rw [hv] at h; cases h
  | some vs =>
    rw [hv] at h
    simp only [encodeAll_eq, bind_eq_ok] at h
    obtain ⟨bs, hbs, _⟩ := h
    refine ⟨vs, bs, rfl, hval, hbs, ?_⟩
    rcases encodeElements_spec hv hval hbs with h1 | ⟨_, h1, _⟩
    · rw [h1] at h0; injection h0 with h0; exact h0.symm
    · rw [h1] at h0; cases h0

/-! ## Pairs of coders -/

/-- As `ReadsBack`, without a lower bound for the encodings other than that they are not empty. -/
structure Belongs (e : Encoder) (d : Decoder) (R : PyVal → PyVal → Prop) : Prop where
  dynamic : e.dyn = d.dyn
  plain : d.isHeadTail = false
  pos : ∀ v v' b, R v v' → e.call v = .ok b → 0 < b.length
  back : ∀ v v' b, R v v' → e.call v = .ok b → ∀ fl strict (st : Stream),
    st.data.length ≤ ssizeMax → At st.data st.pos b → (d.dyn = true → st.total = st.pos) →
    ∃ p, d.run fl strict st = .ok (v', { st with pos := p }) ∧ p ≤ ssizeMax ∧
      (d.dyn = false → p = st.pos + b.length)

theorem readsBack_weak {e : Encoder} {d : Decoder} {R : PyVal → PyVal → Prop} (h : ReadsBack e d R) :
    Belongs e d R where
  dynamic := h.dynamic
  plain := h.plain
  pos v v' b hR hb := (h.size v v' b hR hb).1
  back := h.back

theorem readsBack_back {e : Encoder} {d : Decoder} {R : PyVal → PyVal → Prop} (h : Belongs e d R)
    {v v' : PyVal} {b : Bytes} (hR : R v v') (hb : e.call v = .ok b) : Back (e.dyn, b) d v' where
  dyn := h.dynamic
  plain := h.plain
  pos := h.pos v v' b hR hb
  back := h.back v v' b hR hb

/-- Coders that belong together, one by one. -/
inductive PairsW : List Encoder → List Decoder → List (PyVal → PyVal → Prop) → Prop where
  | nil : PairsW [] [] []
  | cons {e : Encoder} {d : Decoder} {R : PyVal → PyVal → Prop} {es : List Encoder}
      {ds : List Decoder} {Rs : List (PyVal → PyVal → Prop)} :
      Belongs e d R → PairsW es ds Rs → PairsW (e :: es) (d :: ds) (R :: Rs)

/-- Coders that belong together, one by one, with encodings that are long enough. -/
inductive Pairs : List Encoder → List Decoder → List (PyVal → PyVal → Prop) → Prop where
  | nil : Pairs [] [] []
  | cons {e : Encoder} {d : Decoder} {R : PyVal → PyVal → Prop} {es : List Encoder}
      {ds : List Decoder} {Rs : List (PyVal → PyVal → Prop)} :
      ReadsBack e d R → Pairs es ds Rs → Pairs (e :: es) (d :: ds) (R :: Rs)

theorem pairs_weak {es : List Encoder} {ds : List Decoder} {Rs : List (PyVal → PyVal → Prop)}
    (h : Pairs es ds Rs) : PairsW es ds Rs := by
  induction h with
  | nil => exact .nil
  | cons h1 _ ih => exact .cons (readsBack_weak h1) ih

theorem pairs_backs {es : List Encoder} {ds : List Decoder} {Rs : List (PyVal → PyVal → Prop)}
    (h : PairsW es ds Rs) {vs vs' : List PyVal} (hR : Each Rs vs vs') {bs : List Bytes}
    (hb : callAll es vs = .ok bs) : Backs (elems es bs) ds vs' := by
  induction h generalizing vs vs' bs with
  | nil => cases hR; cases hb; exact .nil
  | @cons e d R es ds Rs h1 _ ih =>
    cases hR with
    | cons hr hrs =>
      simp only [callAll, bind_eq_ok, pure_eq_ok] at hb
      obtain ⟨b, hb1, bs', hb2, hb3⟩ := hb
      injection hb3 with hb3; subst hb3
      exact .cons (readsBack_back h1 hr hb1) (ih hrs hb2)

theorem pairs_wide {es : List Encoder} {ds : List Decoder} {Rs : List (PyVal → PyVal → Prop)}
    (h : Pairs es ds Rs) {vs vs' : List PyVal} (hR : Each Rs vs vs') {bs : List Bytes}
    (hb : callAll es vs = .ok bs) : Wide (elems es bs) ds := by
  induction h generalizing vs vs' bs with
  | nil => cases hR; cases hb; exact .nil
  | @cons e d R es ds Rs h1 _ ih =>
    cases hR with
    | cons hr hrs =>
      simp only [callAll, bind_eq_ok, pure_eq_ok] at hb
      obtain ⟨b, hb1, bs', hb2, hb3⟩ := hb
      injection hb3 with hb3; subst hb3
      exact .cons (h1.size _ _ b hr hb1).2 (ih hrs hb2)

theorem item_backs {e : Encoder} {d : Decoder} {R : PyVal → PyVal → Prop} (h : Belongs e d R)
    {vs vs' : List PyVal} (hR : List.Forall₂ R vs vs') {bs : List Bytes}
    (hb : callAll (vs.map fun _ => e) vs = .ok bs) :
    Backs (elems (vs.map fun _ => e) bs) (List.replicate vs.length d) vs' := by
  induction hR generalizing bs with
  | nil => cases hb; exact .nil
  | @cons v v' vs vs' hr _ ih =>
    simp only [List.map_cons, callAll, bind_eq_ok, pure_eq_ok] at hb
    obtain ⟨b, hb1, bs', hb2, hb3⟩ := hb
    injection hb3 with hb3; subst hb3
    exact .cons (readsBack_back h hr hb1) (ih hb2)

theorem item_wide {e : Encoder} {d : Decoder} {R : PyVal → PyVal → Prop} (h : ReadsBack e d R)
    {vs vs' : List PyVal} (hR : List.Forall₂ R vs vs') {bs : List Bytes}
    (hb : callAll (vs.map fun _ => e) vs = .ok bs) :
    Wide (elems (vs.map fun _ => e) bs) (List.replicate vs.length d) := by
  induction hR generalizing bs with
  | nil => cases hb; exact .nil
  | @cons v v' vs vs' hr _ ih =>
    simp only [List.map_cons, callAll, bind_eq_ok, pure_eq_ok] at hb
    obtain ⟨b, hb1, bs', hb2, hb3⟩ := hb
    injection hb3 with hb3; subst hb3
    exact .cons (h.size _ _ b hr hb1).2 (ih hb2)

theorem pairs_dyn {es : List Encoder} {ds : List Decoder} {Rs : List (PyVal → PyVal → Prop)}
    (h : PairsW es ds Rs) : es.any (·.dyn) = (ds.map wrapDyn).any (·.dyn) := by
  induction h with
  | nil => rfl
  | @cons e d R es ds Rs h1 _ ih =>
    simp only [List.any_cons, List.map_cons, ih]
    congr 1
    rw [h1.dynamic, wrapDyn]
    cases hd : d.dyn with
    | true => rfl
    | false => simp only [Bool.false_eq_true, if_false, hd]

theorem tails_static {xs : List Elem} (h : ∀ x ∈ xs, x.1 = false) : tails xs = [] := by
  induction xs with
  | nil => rfl
  | cons x xs ih =>
    obtain ⟨dy, b⟩ := x
    have hd : dy = false := h _ (List.mem_cons_self ..)
    subst hd
    rw [tails, ih fun y hy => h y (List.mem_cons_of_mem _ hy)]
    rfl

theorem backs_headSize {xs : List Elem} {ds : List Decoder} {vs : List PyVal} (h : Backs xs ds vs) :
    xs.length ≤ headSize xs := by
  induction h with
  | nil => exact Nat.le_refl 0
  | @cons x d v xs ds vs hb _ ih =>
    obtain ⟨dy, b⟩ := x
    have hpos : 0 < b.length := hb.pos
    rw [headSize, List.length_cons]
    cases dy with
    | true => simp only [if_true]; omega
    | false => simp only [Bool.false_eq_true, if_false]; omega

theorem wide_headSize {xs : List Elem} {ds : List Decoder} {vs : List PyVal} (h : Backs xs ds vs)
    (hw : Wide xs ds) : 32 * xs.length ≤ headSize xs := by
  induction h with
  | nil => exact Nat.le_refl 0
  | @cons x d v xs ds vs hb _ ih =>
    cases hw with
    | cons hs hw =>
    replace ih := ih hw
    obtain ⟨dy, b⟩ := x
    have hdy : dy = d.dyn := hb.dyn
    rw [headSize, List.length_cons]
    cases dy with
    | true => simp only [if_true]; omega
    | false =>
      have := (hs hdy.symm).1
      simp only [Bool.false_eq_true, if_false] at this ⊢
      omega

theorem elems_any {es : List Encoder} {bs : List Bytes} (hl : bs.length = es.length) :
    (elems es bs).any (·.1) = es.any (·.dyn) := by
  induction es generalizing bs with
  | nil => rfl
  | cons e es ih =>
    cases bs with
    | nil => simp at hl
    | cons b bs =>
      simp only [List.length_cons, Nat.add_right_cancel_iff] at hl
      simp only [elems, List.any_cons, ih hl]

theorem elems_length {es : List Encoder} {bs : List Bytes} (hl : bs.length = es.length) :
    (elems es bs).length = es.length := by
  have := congrArg List.length (elems_snd hl)
  rw [List.length_map] at this
  omega

/-- `TupleEncoder` and `TupleDecoder` over coders that belong together. -/
theorem fits_tuple [Ext] {es : List Encoder} {ds : List Decoder} {Rs : List (PyVal → PyVal → Prop)}
    (h : PairsW es ds Rs) (hne : es ≠ [])
    (hroom : ∀ vs vs' bs, Each Rs vs vs' → callAll es vs = .ok bs → es.any (·.dyn) = true →
      32 * lenOfHead (ds.map wrapDyn) ≤ headSize (elems es bs)) :
    Belongs (mkTuple es) (mkTupleD ds) (TupleOf Rs) := by
  have hdyn : (mkTuple es).dyn = (mkTupleD ds).dyn := pairs_dyn h
  have key : ∀ v v' B, TupleOf Rs v v' → (mkTuple es).call v = .ok B → ∃ xs vs',
      v' = .tuple vs' ∧ Backs xs ds vs' ∧ B = layout xs ∧ xs ≠ [] ∧
        xs.any (·.1) = (mkTupleD ds).dyn ∧
        (xs.any (·.1) = true → 32 * lenOfHead (ds.map wrapDyn) ≤ headSize xs) := by
    rintro v v' B ⟨vs, vs', hv, rfl, hR⟩ hB
    obtain ⟨us, bs, h1, h2, h3, h4⟩ := tupleEncode_inv hB
    have : us = vs := by rw [isSeqOf_iff.1 hv] at h1; injection h1 with h1; exact h1.symm
    subst this
    have hl := callAll_length h3 h2
    refine ⟨elems es bs, vs', rfl, pairs_backs h hR h3, h4, ?_, ?_, fun ha => ?_⟩
    · intro h0
      have := elems_length hl
      rw [h0] at this
      exact hne (List.length_eq_zero_iff.1 this.symm)
    · rw [elems_any hl, ← hdyn]; rfl
    · exact hroom us vs' bs hR h3 (by rw [← elems_any hl]; exact ha)
  constructor
  · exact hdyn
  · rfl
  · intro v v' B hR hB
    obtain ⟨xs, vs', _, h2, h3, h4, _⟩ := key v v' B hR hB
    have h6 := backs_headSize h2
    have h7 : 0 < xs.length := List.length_pos_of_ne_nil h4
    rw [h3, layout_length]; omega
  · intro v v' B hR hB fl strict st hl hat ht
    obtain ⟨xs, vs', rfl, h2, rfl, h4, h5, hr⟩ := key v v' B hR hB
    have h6 := backs_headSize h2
    have h7 : 0 < xs.length := List.length_pos_of_ne_nil h4
    have h9 : (layout xs).length = headSize xs + (tails xs).length := layout_length xs
    have h8 := at_length hat (by omega)
    refine ⟨st.pos + headSize xs, tupleDecode_back h2 hr fl st hl (by omega) hat ?_, by omega, ?_⟩
    · intro x hx hx1
      exact ht (by rw [← h5]; exact List.any_eq_true.2 ⟨x, hx, hx1⟩)
    · intro hs
      rw [hs] at h5
      have hst : ∀ x ∈ xs, x.1 = false := by
        intro x hx
        have := List.any_eq_false.1 h5 x hx
        simpa using this
      rw [h9, tails_static hst]
      rfl

/-- The same with encodings that are long enough. -/
theorem readsBack_tuple [Ext] {es : List Encoder} {ds : List Decoder} {Rs : List (PyVal → PyVal → Prop)}
    (h : Pairs es ds Rs) (hne : es ≠ []) : ReadsBack (mkTuple es) (mkTupleD ds) (TupleOf Rs) := by
  have hw := pairs_weak h
  have hF := fits_tuple hw hne fun vs vs' bs hR hb _ =>
    lenOfHead_back (pairs_backs hw hR hb) (pairs_wide h hR hb)
  refine ⟨hF.dynamic, hF.plain, ?_, hF.back⟩
  rintro v v' B ⟨vs, vs', hv, rfl, hR⟩ hB
  obtain ⟨us, bs, h1, h2, h3, h4⟩ := tupleEncode_inv hB
  have : us = vs := by rw [isSeqOf_iff.1 hv] at h1; injection h1 with h1; exact h1.symm
  subst this
  have hl := callAll_length h3 h2
  have h6 := wide_headSize (pairs_backs hw hR h3) (pairs_wide h hR h3)
  have h7 : 0 < (elems es bs).length := by
    rw [elems_length hl]; exact List.length_pos_of_ne_nil hne
  have h8 : 32 ≤ B.length := by rw [h4, layout_length]; omega
  exact ⟨by omega, fun _ => ⟨h8, h8⟩⟩

theorem backs_static {xs : List Elem} {d : Decoder} {n : Nat} {vs : List PyVal}
    (h : Backs xs (List.replicate n d) vs) (hd : d.dyn = false) : (layout xs).length = headSize xs := by
  rw [layout_length, tails_static fun x hx => (backs_dyn h x hx).trans hd]
  rfl

/-- What a successful call of a sized array encoder did. -/
theorem sized_inv [Ext] {e : Encoder} {d : Decoder} {R : PyVal → PyVal → Prop} (h : Belongs e d R) {k : Nat}
    {v v' : PyVal} {B : Bytes} (hR : ListOf R v v')
    (hB : encodeElements (sizedArrayValidate e (some k)) e v = .ok B) :
    ∃ xs vs', v' = .tuple vs' ∧ Backs xs (List.replicate k d) vs' ∧ B = layout xs ∧
      (ReadsBack e d R → Wide xs (List.replicate k d)) := by
  obtain ⟨vs, vs', hv, rfl, hR⟩ := hR
  obtain ⟨us, bs, h1, h2, h3, h4⟩ := encodeElements_inv hB
  have : us = vs := by rw [isSeqOf_iff.1 hv] at h1; injection h1 with h1; exact h1.symm
  subst this
  have hlen : us.length = k := by
    obtain ⟨us', h5, _, h7⟩ := sizedArrayValidate_ok.1 h2
    rw [h1] at h5; injection h5 with h5; subst h5
    exact h7 k rfl
  rw [← hlen]
  exact ⟨_, vs', rfl, item_backs h hR h3, h4, fun hrb => item_wide hrb hR h3⟩

/-- The objects that the constructors of the sized array classes return. -/
theorem sized_made [Ext] {e : Encoder} {d : Decoder} {x : Bool} (hx : e.isDynamic = some x)
    (hy : d.isDynamic = some x) (k : Nat) :
    mkSizedArray k e = .ok ⟨some x, some (sizedArrayValidate e (some k)),
      encodeElements (sizedArrayValidate e (some k)) e⟩ ∧
    mkSizedArrayD k d = .ok (sizedDec k x d) := by
  constructor
  · unfold mkSizedArray
    rw [hx]
  · unfold mkSizedArrayD wrapItem sizedDec
    rw [hy]
    cases x with
    | true => rfl
    | false => simp only [Bool.false_eq_true, if_false, ok_bind, pure_eq_ok, hy]

/-- `SizedArrayEncoder` and `SizedArrayDecoder`. -/
theorem fits_sized [Ext] {e : Encoder} {d : Decoder} {R : PyVal → PyVal → Prop} (h : Belongs e d R)
    {k : Nat} (hk : 0 < k) {x : Bool} (hx : e.isDynamic = some x) (hy : d.isDynamic = some x) :
    Belongs ⟨some x, some (sizedArrayValidate e (some k)),
      encodeElements (sizedArrayValidate e (some k)) e⟩ (sizedDec k x d) (ListOf R) := by
  have hyd : d.dyn = x := by rw [Decoder.dyn, hy]; rfl
  constructor
  · rfl
  · rfl
  · intro v v' B hR hB
    obtain ⟨xs, vs', _, h2, h3, _⟩ := sized_inv h hR hB
    have h6 := backs_headSize h2
    have h7 : xs.length = k := by rw [(backs_length h2).1, List.length_replicate]
    rw [h3, layout_length]; omega
  · intro v v' B hR hB fl strict st hl hat ht
    obtain ⟨xs, vs', rfl, h2, rfl, _⟩ := sized_inv h hR hB
    have h6 := backs_headSize h2
    have h7 : xs.length = k := by rw [(backs_length h2).1, List.length_replicate]
    have h9 : (layout xs).length = headSize xs + (tails xs).length := layout_length xs
    have h8 := at_length hat (by omega)
    have htt : d.dyn = true → st.total = st.pos := fun h0 => ht (by
      show (some x).getD false = true
      rw [← hyd]; exact h0)
    refine ⟨st.pos + headSize xs, ?_, by omega, ?_⟩
    · have := arrayBody_back h2 h.plain fl st hl (by omega) hat htt
      rw [hyd] at this
      show sizedArrayDecode fl (if x then headTail d else d) k st = _
      unfold sizedArrayDecode
      rw [← bind_assoc', this]
      rfl
    · intro hs
      rw [backs_static h2 (hyd.trans hs)]

/-- The same with encodings that are long enough. -/
theorem readsBack_sized [Ext] {e : Encoder} {d : Decoder} {R : PyVal → PyVal → Prop} (h : ReadsBack e d R)
    {k : Nat} (hk : 0 < k) (he : e.isDynamic ≠ none) (hd : d.isDynamic ≠ none) :
    ∃ E D, mkSizedArray k e = .ok E ∧ mkSizedArrayD k d = .ok D ∧ ReadsBack E D (ListOf R) ∧
      E.isDynamic ≠ none ∧ D.isDynamic ≠ none := by
  obtain ⟨x, hx⟩ : ∃ x, e.isDynamic = some x := Option.ne_none_iff_exists'.1 he
  obtain ⟨y, hy⟩ : ∃ y, d.isDynamic = some y := Option.ne_none_iff_exists'.1 hd
  have hxd : e.dyn = x := by rw [Encoder.dyn, hx]; rfl
  have hyd : d.dyn = y := by rw [Decoder.dyn, hy]; rfl
  have hxy : x = y := by rw [← hxd, ← hyd]; exact h.dynamic
  subst hxy
  have hw := readsBack_weak h
  have hF := fits_sized hw hk hx hy
  refine ⟨_, _, (sized_made hx hy k).1, (sized_made hx hy k).2, ⟨hF.dynamic, hF.plain, ?_, hF.back⟩,
    by simp, by simp [sizedDec]⟩
  intro v v' B hR hB
  obtain ⟨xs, vs', _, h2, h3, h4⟩ := sized_inv hw hR hB
  have h6 := wide_headSize h2 (h4 h)
  have h7 : xs.length = k := by rw [(backs_length h2).1, List.length_replicate]
  have h8 : 32 * k ≤ B.length := by rw [h3, layout_length]; omega
  refine ⟨by omega, fun _ => ⟨by omega, ?_⟩⟩
  show 32 * (some k).getD 1 ≤ _
  exact h8

/-- `DynamicArrayEncoder` and `DynamicArrayDecoder`. -/
theorem fits_dyn [Ext] {e : Encoder} {d : Decoder} {R : PyVal → PyVal → Prop} (h : Belongs e d R)
    {y : Bool} (hy : d.isDynamic = some y) :
    mkDynamicArrayD d = .ok (dynDec y d) ∧ Belongs (mkDynamicArray e) (dynDec y d) (ListOf R) := by
  have hyd : d.dyn = y := by rw [Decoder.dyn, hy]; rfl
  have hD : mkDynamicArrayD d = .ok (dynDec y d) := by
    unfold mkDynamicArrayD wrapItem dynDec
    rw [hy]
    rfl
  refine ⟨hD, ?_⟩
  have key : ∀ v v' B, ListOf R v v' → (mkDynamicArray e).call v = .ok B →
      ∃ xs vs' n, v' = .tuple vs' ∧ Backs xs (List.replicate n d) vs' ∧ n < 2 ^ 256 ∧
        B = be32 n ++ layout xs := by
    rintro v v' B ⟨vs, vs', hv, rfl, hR⟩ hB
    simp only [mkDynamicArray, bind_eq_ok, pure_eq_ok] at hB
    obtain ⟨n, hn, size, hsz, el, hel, hB⟩ := hB
    injection hB with hB
    obtain ⟨us, bs, h1, h2, h3, h4⟩ := encodeElements_inv hel
    have : us = vs := by rw [isSeqOf_iff.1 hv] at h1; injection h1 with h1; exact h1.symm
    subst this
    have hnl : n = us.length := by
      rw [(asListLike_weight h1).2.2] at hn
      injection hn with hn
      exact hn.symm
    subst hnl
    rw [encodeUint256_eq] at hsz
    split at hsz
    · next hlt =>
      injection hsz with hsz
      exact ⟨_, vs', us.length, rfl, item_backs h hR h3, hlt, by rw [← hB, ← hsz, h4]⟩
    · cases hsz
  constructor
  · rfl
  · rfl
  · intro v v' B hR hB
    obtain ⟨xs, vs', n, _, _, _, h3⟩ := key v v' B hR hB
    rw [h3]; simp
  · intro v v' B hR hB fl strict st hl hat ht
    obtain ⟨xs, vs', n, rfl, h2, hlt, rfl⟩ := key v v' B hR hB
    have ht : st.total = st.pos := ht rfl
    obtain ⟨ha, hb⟩ := at_append.1 hat
    rw [be32_length] at hb
    have h8 := at_length ha (by simp)
    rw [be32_length] at h8
    refine ⟨st.pos + 32, ?_, by omega, fun h0 => by cases h0⟩
    have := arrayBody_back h2 h.plain fl
      ⟨st.data, st.pos + 32, (32, st.pos + 32) :: st.frames, st.pos + 32⟩ hl
      (by show st.pos + 32 ≤ ssizeMax; omega) hb (fun _ => rfl)
    rw [hyd] at this
    show dynamicArrayDecode fl (if y then headTail d else d) st = _
    simp only [dynamicArrayDecode, wordAt_decode hlt ha, ok_bind, Stream.pushFrame, Stream.seekInFrame,
      Stream.seek, Nat.add_zero, ht]
    rw [if_neg (by omega), ok_bind, ← bind_assoc', this]
    simp only [ok_bind, Stream.popFrame, Stream.seek]
    rw [if_neg (by omega), ok_bind, pure_eq_ok]
    rfl

/-- The same with encodings that are long enough. -/
theorem readsBack_dyn [Ext] {e : Encoder} {d : Decoder} {R : PyVal → PyVal → Prop} (h : ReadsBack e d R)
    (hd : d.isDynamic ≠ none) :
    ∃ D, mkDynamicArrayD d = .ok D ∧ ReadsBack (mkDynamicArray e) D (ListOf R) ∧
      D.isDynamic ≠ none := by
  obtain ⟨y, hy⟩ : ∃ y, d.isDynamic = some y := Option.ne_none_iff_exists'.1 hd
  obtain ⟨hD, hF⟩ := fits_dyn (readsBack_weak h) hy
  refine ⟨_, hD, ⟨hF.dynamic, hF.plain, ?_, hF.back⟩, by simp [dynDec]⟩
  intro v v' B hR hB
  exact ⟨hF.pos v v' B hR hB, fun h0 => by cases h0⟩

end EthAbi
