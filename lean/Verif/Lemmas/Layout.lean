import Verif.Lemmas.Leaf

/-! # Heads and tails as the code computes them, against the specified layout -/
namespace EthAbi
open Spec

/-- Induction on ABI types. -/
theorem Spec.Ty.ind {P : Ty → Prop} (uint : ∀ n, P (.uint n)) (int : ∀ n, P (.int n))
    (address : P .address) (bool : P .bool) (ufixed : ∀ m n, P (.ufixed m n))
    (fixed : ∀ m n, P (.fixed m n)) (bytesM : ∀ m, P (.bytesM m)) (bytes : P .bytes)
    (string : P .string) (sized : ∀ k t, P t → P (.sized k t)) (dyn : ∀ t, P t → P (.dyn t))
    (tuple : ∀ ts, (∀ t ∈ ts, P t) → P (.tuple ts)) (t : Ty) : P t :=
  Ty.rec (motive_1 := P) (motive_2 := fun ts => ∀ t ∈ ts, P t) uint int address bool ufixed fixed
    bytesM bytes string sized dyn tuple (by simp) (by simp +contextual) t

theorem heads_length (off : Nat) (es : List Elem) : (heads off es).length = headSize es := by
  induction es generalizing off with
  | nil => rfl
  | cons a es ih =>
    obtain ⟨d, b⟩ := a
    cases d <;> simp [heads, headSize, ih]

theorem layout_length (es : List Elem) :
    (layout es).length = headSize es + (tails es).length := by
  rw [layout, List.length_append, heads_length]

/-- A sequence of static elements is just concatenated. -/
theorem layout_static {es : List Elem} (h : ∀ a ∈ es, a.1 = false) :
    layout es = (es.map (·.2)).flatten := by
  have h1 : ∀ off, heads off es = (es.map (·.2)).flatten := by
    induction es with
    | nil => intro; rfl
    | cons a es ih =>
      obtain ⟨d, b⟩ := a
      have hd : d = false := h (d, b) (by simp)
      subst hd
      intro off
      simp [heads, ih (fun a ha => h a (by simp [ha]))]
  have h2 : tails es = [] := by
    clear h1
    induction es with
    | nil => rfl
    | cons a es ih =>
      obtain ⟨d, b⟩ := a
      have hd : d = false := h (d, b) (by simp)
      subst hd
      simp [tails, ih (fun a ha => h a (by simp [ha]))]
  rw [layout, h1, h2, List.append_nil]

/-! ## Calling every item encoder -/

/-- Each encoder on its value. -/
def callAll : List Encoder → List PyVal → PyM (List Bytes)
  | e :: es, v :: vs => do
    let b ← e.call v
    let bs ← callAll es vs
    return b :: bs
  | _, _ => .ok []

/-- The elements that the encoders produced. -/
def elems : List Encoder → List Bytes → List Elem
  | e :: es, b :: bs => (e.dyn, b) :: elems es bs
  | _, _ => []

/-- An element of `raw_head_chunks`. -/
def rawOf (a : Elem) : Option Bytes := if a.1 then none else some a.2

/-- An element of `tail_chunks`. -/
def tailOf (a : Elem) : Bytes := if a.1 then a.2 else []

theorem encodeAll_eq (item : Encoder) (vs : List PyVal) :
    encodeAll item vs = callAll (vs.map fun _ => item) vs := by
  induction vs with
  | nil => rfl
  | cons v vs ih => simp only [encodeAll, List.map_cons, callAll, ih]

theorem tupleChunks_eq (es : List Encoder) (vs : List PyVal) :
    tupleChunks vs es = (callAll es vs >>= fun bs =>
      .ok ((elems es bs).map rawOf, (elems es bs).map tailOf)) := by
  induction es generalizing vs with
  | nil => cases vs <;> rfl
  | cons e es ih =>
    cases vs with
    | nil => rfl
    | cons v vs =>
      simp only [tupleChunks, callAll, ih]
      cases e.call v with
      | error er => rfl
      | ok b =>
        simp only [ok_bind]
        cases callAll es vs with
        | error er => rfl
        | ok bs =>
          simp only [ok_bind, pure_eq_ok, elems, List.map_cons, rawOf, tailOf]
          cases e.dyn <;> rfl

theorem callAll_length {es : List Encoder} {vs : List PyVal} {bs : List Bytes}
    (h : callAll es vs = .ok bs) (hl : vs.length = es.length) : bs.length = es.length := by
  induction es generalizing vs bs with
  | nil => cases vs <;> (cases h; rfl)
  | cons e es ih =>
    cases vs with
    | nil => simp at hl
    | cons v vs =>
      simp only [callAll, bind_eq_ok, pure_eq_ok] at h
      obtain ⟨b, _, bs', h2, h3⟩ := h
      injection h3 with h3; subst h3
      simp only [List.length_cons, Nat.add_right_cancel_iff] at hl ⊢
      exact ih h2 hl

theorem headLength_eq (els : List Elem) : headLength (els.map rawOf) = headSize els := by
  induction els with
  | nil => rfl
  | cons a els ih =>
    obtain ⟨d, b⟩ := a
    simp only [headLength, List.map_cons, List.sum_cons] at ih ⊢
    rw [ih, headSize]
    cases d <;> rfl

theorem tailOf_flatten (els : List Elem) : (els.map tailOf).flatten = tails els := by
  induction els with
  | nil => rfl
  | cons a els ih =>
    obtain ⟨d, b⟩ := a
    simp only [List.map_cons, List.flatten_cons, ih, tails, tailOf]

/-- The offsets of successive chunks. -/
def offsetsFrom (a : Nat) : List Bytes → List Nat
  | [] => []
  | t :: ts => a :: offsetsFrom (a + t.length) ts

theorem accumulateFrom_dropLast (a : Nat) (t : Bytes) (ts : List Bytes) :
    a :: accumulateFrom a (((t :: ts).dropLast).map List.length) = offsetsFrom a (t :: ts) := by
  induction ts generalizing a t with
  | nil => rfl
  | cons u us ih =>
    rw [List.dropLast_cons₂, List.map_cons, accumulateFrom, offsetsFrom, ih]

theorem tailOffsets_eq {ts : List Bytes} (h : ts ≠ []) : tailOffsets ts = offsetsFrom 0 ts := by
  cases ts with
  | nil => exact absurd rfl h
  | cons t ts => exact accumulateFrom_dropLast 0 t ts

theorem tupleHeadChunks_spec [Ext] (H : Nat) (els : List Elem) (a : Nat) :
    (∃ hs, tupleHeadChunks H (els.map rawOf) (offsetsFrom a (els.map tailOf)) = .ok hs ∧
      hs.flatten = heads (H + a) els) ∨
    (∃ er, tupleHeadChunks H (els.map rawOf) (offsetsFrom a (els.map tailOf)) = .error er ∧ TooBig er ∧
      2 ^ 256 ≤ H + a + (tails els).length) := by
  induction els generalizing a with
  | nil => exact Or.inl ⟨[], rfl, rfl⟩
  | cons x els ih =>
    obtain ⟨d, b⟩ := x
    cases d with
    | false =>
      simp only [List.map_cons, rawOf, tailOf, Bool.false_eq_true, if_false, offsetsFrom,
        tupleHeadChunks, ok_bind, List.length_nil, Nat.add_zero, tails, heads, List.nil_append]
      rcases ih a with ⟨hs, h1, h2⟩ | ⟨er, h1, ht, h2⟩
      · exact Or.inl ⟨b :: hs, by rw [h1]; rfl, by simp [h2]⟩
      · exact Or.inr ⟨er, by rw [h1]; rfl, ht, h2⟩
    | true =>
      simp only [List.map_cons, rawOf, tailOf, if_true, offsetsFrom, tupleHeadChunks,
        tails, heads, encodeUint256_eq]
      by_cases hlt : H + a < 2 ^ 256
      · rw [if_pos hlt, ok_bind]
        rcases ih (a + b.length) with ⟨hs, h1, h2⟩ | ⟨er, h1, ht, h2⟩
        · refine Or.inl ⟨be32 (H + a) :: hs, by rw [h1]; rfl, ?_⟩
          simp [h2, Nat.add_assoc]
        · refine Or.inr ⟨er, by rw [h1]; rfl, ht, ?_⟩
          simp only [List.length_append]; omega
      · rw [if_neg hlt]
        exact Or.inr ⟨_, rfl, shown_tooBig _, by omega⟩

theorem tupleHeadChunks_nil [Ext] (H : Nat) (os : List Nat) : tupleHeadChunks H [] os = .ok [] := by
  cases os <;> rfl

/-- `TupleEncoder.encode` after validation and the item encodings. -/
theorem tupleEncode_spec [Ext] {es : List Encoder} {v : PyVal} {vs : List PyVal} {bs : List Bytes}
    (hv : asListLike? v = some vs) (hval : tupleValidate es v = .ok ())
    (hc : callAll es vs = .ok bs) :
    tupleEncode es v = .ok (layout (elems es bs)) ∨
      (∃ er, tupleEncode es v = .error er ∧ TooBig er ∧ 2 ^ 256 ≤ (layout (elems es bs)).length) := by
  simp only [tupleEncode, hval, hv, ok_bind, tupleChunks_eq, hc, headLength_eq, layout_length]
  generalize hels : elems es bs = els
  cases els with
  | nil => left; rfl
  | cons x els =>
    rw [tailOffsets_eq (by simp)]
    rcases tupleHeadChunks_spec (headSize (x :: els)) (x :: els) 0 with ⟨hs, h1, h2⟩ | ⟨er, h1, ht, h2⟩
    · left
      rw [h1, ok_bind, pure_eq_ok, List.flatten_append, h2, tailOf_flatten]; rfl
    · right
      refine ⟨er, by rw [h1]; rfl, ht, by omega⟩

theorem elems_static {item : Encoder} (hd : item.dyn = false) (vs : List PyVal) (bs : List Bytes) :
    ∀ a ∈ elems (vs.map fun _ => item) bs, a.1 = false := by
  induction vs generalizing bs with
  | nil => intro a ha; simp [elems] at ha
  | cons v vs ih =>
    cases bs with
    | nil => intro a ha; simp [elems] at ha
    | cons b bs =>
      intro a ha
      simp only [List.map_cons, elems, List.mem_cons] at ha
      rcases ha with rfl | ha
      · exact hd
      · exact ih bs a ha

theorem elems_snd {es : List Encoder} {bs : List Bytes} (h : bs.length = es.length) :
    (elems es bs).map (·.2) = bs := by
  induction es generalizing bs with
  | nil => cases bs with
    | nil => rfl
    | cons b bs => simp at h
  | cons e es ih =>
    cases bs with
    | nil => rfl
    | cons b bs =>
      simp only [List.length_cons, Nat.add_right_cancel_iff] at h
      simp [elems, ih h]

theorem arrayHeadChunks_eq [Ext] (H : Nat) (item : Encoder) (hd : item.dyn = true) (vs : List PyVal)
    (bs : List Bytes) (hl : bs.length = vs.length) (a : Nat) :
    arrayHeadChunks H (offsetsFrom a bs) =
      tupleHeadChunks H ((elems (vs.map fun _ => item) bs).map rawOf)
        (offsetsFrom a ((elems (vs.map fun _ => item) bs).map tailOf)) := by
  induction vs generalizing bs a with
  | nil =>
    cases bs with
    | nil => rfl
    | cons b bs => simp at hl
  | cons v vs ih =>
    cases bs with
    | nil => simp at hl
    | cons b bs =>
      simp only [List.length_cons, Nat.add_right_cancel_iff] at hl
      simp only [List.map_cons, elems, rawOf, tailOf, hd, if_true, offsetsFrom, arrayHeadChunks,
        tupleHeadChunks]
      rw [ih bs hl]

theorem elems_dynamic {item : Encoder} (hd : item.dyn = true) (vs : List PyVal) (bs : List Bytes)
    (hl : bs.length = vs.length) :
    headSize (elems (vs.map fun _ => item) bs) = 32 * vs.length ∧
      (elems (vs.map fun _ => item) bs).map tailOf = bs := by
  induction vs generalizing bs with
  | nil =>
    cases bs with
    | nil => exact ⟨rfl, rfl⟩
    | cons b bs => simp at hl
  | cons v vs ih =>
    cases bs with
    | nil => simp at hl
    | cons b bs =>
      simp only [List.length_cons, Nat.add_right_cancel_iff] at hl
      obtain ⟨h1, h2⟩ := ih bs hl
      simp only [List.map_cons, elems, hd, headSize, h1, h2, tailOf, if_true, List.length_cons]
      exact ⟨by omega, trivial⟩

/-- `encode_elements` after validation and the item encodings. -/
theorem encodeElements_spec [Ext] {validate : PyVal → PyM Unit} {item : Encoder} {v : PyVal}
    {vs : List PyVal} {bs : List Bytes} (hv : asListLike? v = some vs)
    (hval : validate v = .ok ()) (hc : callAll (vs.map fun _ => item) vs = .ok bs) :
    encodeElements validate item v = .ok (layout (elems (vs.map fun _ => item) bs)) ∨
      (∃ er, encodeElements validate item v = .error er ∧ TooBig er ∧
        2 ^ 256 ≤ (layout (elems (vs.map fun _ => item) bs)).length) := by
  have hl := callAll_length hc (by simp)
  have hl' : bs.length = vs.length := by simpa using hl
  simp only [encodeElements, hval, hv, ok_bind, encodeAll_eq, hc]
  cases hd : item.dyn with
  | false =>
    left
    simp only [Bool.not_false, Bool.true_or, if_true, pure_eq_ok]
    rw [layout_static (elems_static hd vs bs), elems_snd hl]
  | true =>
    cases vs with
    | nil =>
      left
      cases bs with
      | nil => rfl
      | cons b bs => simp at hl
    | cons u us =>
      obtain ⟨h1, h2⟩ := elems_dynamic hd (u :: us) bs hl'
      simp only [Bool.not_true, Bool.false_or, List.length_cons]
      rw [if_neg (by simp)]
      rw [tailOffsets_eq (by intro h0; subst h0; simp at hl'), arrayHeadChunks_eq _ item hd _ _ hl', layout_length]
      have hH : 32 * (us.length + 1) = headSize (elems ((u :: us).map fun _ => item) bs) := by
        rw [h1]; rfl
      rw [hH]
      rcases tupleHeadChunks_spec (headSize (elems ((u :: us).map fun _ => item) bs))
        (elems ((u :: us).map fun _ => item) bs) 0 with ⟨hs, h3, h4⟩ | ⟨er, h3, ht, h4⟩
      · left
        rw [h3, ok_bind, pure_eq_ok, List.flatten_append, h4]
        have h5 := tailOf_flatten (elems ((u :: us).map fun _ => item) bs)
        rw [h2] at h5
        rw [h5]
        rfl
      · right
        exact ⟨er, by rw [h3]; rfl, ht, by omega⟩

end EthAbi
