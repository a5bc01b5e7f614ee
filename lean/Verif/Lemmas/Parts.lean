import Verif.Lemmas.BuiltIn
import Verif.Lemmas.DirectEnc
import Verif.Lemmas.CallSpec
import Verif.Props.Direct
import Verif.Spec.Parts

/-! # Coder objects put together by hand -/
namespace EthAbi
open Spec

theorem Spec.Form.ind {P : Form → Prop} (leaf : ∀ c v d f, P (.leaf c v d f)) (bytes : P .bytes)
    (string : P .string) (sized : ∀ k s, P s → P (.sized k s)) (dyn : ∀ s, P s → P (.dyn s))
    (tuple : ∀ ss, (∀ s ∈ ss, P s) → P (.tuple ss)) (s : Form) : P s :=
  Form.rec (motive_1 := P) (motive_2 := fun ss => ∀ s ∈ ss, P s) leaf bytes string sized dyn tuple
    (by simp) (by simp +contextual) s

theorem clsType_static (c : Cls) (v f : Nat) : (clsType c v f).dynamic = false := by cases c <;> rfl

/-- What is proved of an encoder of form `s`. -/
structure PartGood [Ext] (s : Form) (e : Encoder) : Prop where
  base : EncBase s.ty e s.ty.dynamic s.enc
  spec : ∀ v b, e.call v = .ok b → OnGrid s.ty v → ∃ x, denote s.ty v = some x ∧ b = s.enc x

/-- The lengths of the encodings. -/
def LengthsOk (s : Form) : Prop :=
  ∀ x, Val.Of s.ty x → 0 < (s.enc x).length ∧ (s.ty.dynamic = false → (s.enc x).length = s.width)

/-- What is proved of the attributes of a decoder of form `s`. -/
structure PartDec (s : Form) (d : Decoder) : Prop where
  isDyn : d.isDynamic = some s.ty.dynamic
  plain : d.isHeadTail = false
  size : s.ty.dynamic = false → d.arraySize.getD 1 = s.reckoned

/-- The values that come back. -/
def partRel [Ext] (s : Form) (v v' : PyVal) : Prop := ∃ x, denote s.ty v = some x ∧ v' = toPy s.ty x

theorem Belongs.mono {e : Encoder} {d : Decoder} {R R' : PyVal → PyVal → Prop} (h : Belongs e d R)
    (hR : ∀ v v', R' v v' → R v v') : Belongs e d R' where
  dynamic := h.dynamic
  plain := h.plain
  pos v v' b hr := h.pos v v' b (hR v v' hr)
  back v v' b hr := h.back v v' b (hR v v' hr)

/-! ## Lengths -/

theorem headSize_pos' {es : List Elem} (h : ∀ a ∈ es, 0 < a.2.length) : es.length ≤ headSize es := by
  induction es with
  | nil => simp
  | cons a es ih =>
    obtain ⟨d, b⟩ := a
    have h1 : 0 < b.length := h _ (List.mem_cons_self ..)
    have := ih fun a ha => h a (List.mem_cons_of_mem _ ha)
    rw [headSize, List.length_cons]
    cases d <;> simp <;> omega

theorem sum_const {xs : List Val} {f : Val → Nat} {w : Nat} (h : ∀ x ∈ xs, f x = w) :
    (xs.map f).sum = xs.length * w := by
  induction xs with
  | nil => simp
  | cons x xs ih =>
    rw [List.map_cons, List.sum_cons, ih fun y hy => h y (List.mem_cons_of_mem _ hy),
      h x (List.mem_cons_self ..), List.length_cons, Nat.succ_mul, Nat.add_comm]

theorem lengths_sized {s : Form} (h : LengthsOk s) {k : Nat} (hk : 0 < k) : LengthsOk (.sized k s) := by
  intro x hx
  simp only [Form.ty] at hx
  cases x <;> simp only [Val.Of] at hx <;> try cases hx
  rename_i xs hl hxs
  simp only [Form.enc, Form.ty, Ty.dynamic, Form.width]
  constructor
  · have := headSize_pos' (es := xs.map fun x => (s.ty.dynamic, s.enc x)) (by
      intro a ha
      obtain ⟨y, hy, rfl⟩ := List.mem_map.1 ha
      exact (h y (hxs y hy)).1)
    rw [List.length_map] at this
    rw [layout_length]
    omega
  · intro hd
    rw [layout_static_length (by intro a ha; obtain ⟨y, _, rfl⟩ := List.mem_map.1 ha; exact hd), List.map_map]
    rw [← hl]
    exact sum_const fun y hy => (h y (hxs y hy)).2 hd

theorem lengths_dyn {s : Form} : LengthsOk (.dyn s) := by
  intro x hx
  simp only [Form.ty] at hx
  cases x <;> simp only [Val.Of] at hx
  simp only [Form.enc, Form.ty, Ty.dynamic, List.length_append, be32_length]
  exact ⟨by omega, by simp⟩

theorem encAll_head {ss : List Form} (h : ∀ s ∈ ss, LengthsOk s) {xs : List Val}
    (hx : Val.OfAll (Form.tys ss) xs) : headSize (Form.encAll ss xs) = (ss.map Form.headWidth).sum := by
  induction ss generalizing xs with
  | nil => cases xs <;> rfl
  | cons s ss ih =>
    cases xs with
    | nil => simp only [Form.tys, Val.OfAll] at hx
    | cons x xs =>
      simp only [Form.tys, Val.OfAll] at hx
      rw [Form.encAll, headSize, List.map_cons, List.sum_cons,
        ih (fun s hs => h s (List.mem_cons_of_mem _ hs)) hx.2, Form.headWidth]
      cases hd : s.ty.dynamic with
      | true => rfl
      | false => rw [(h s (List.mem_cons_self ..) x hx.1).2 hd]

theorem tys_any (ss : List Form) : Ty.anyDynamic (Form.tys ss) = ss.any (·.ty.dynamic) := by
  induction ss with
  | nil => rfl
  | cons s ss ih => simp only [Form.tys, Ty.anyDynamic, List.any_cons, ih]

theorem tys_length (ss : List Form) : (Form.tys ss).length = ss.length := by
  induction ss with
  | nil => rfl
  | cons s ss ih => simp only [Form.tys, List.length_cons, ih]

theorem lengths_tuple {ss : List Form} (h : ∀ s ∈ ss, LengthsOk s) (hne : ss ≠ []) :
    LengthsOk (.tuple ss) := by
  intro x hx
  simp only [Form.ty] at hx
  cases x <;> simp only [Val.Of] at hx
  rename_i xs
  have hh := encAll_head h hx
  simp only [Form.enc, Form.ty, Ty.dynamic, Form.width]
  rw [layout_length, hh]
  constructor
  · cases ss with
    | nil => exact absurd rfl hne
    | cons s ss =>
      cases xs with
      | nil => simp only [Form.tys, Val.OfAll] at hx
      | cons x xs =>
        simp only [Form.tys, Val.OfAll] at hx
        have hl := h s (List.mem_cons_self ..) x hx.1
        have : 0 < s.headWidth := by
          unfold Form.headWidth
          cases hd : s.ty.dynamic with
          | true => simp
          | false => have := hl.2 hd; simp only [Bool.false_eq_true, if_false]; omega
        simp only [List.map_cons, List.sum_cons]
        omega
  · intro hd
    rw [tys_any] at hd
    have h0 : ∀ s ∈ ss, s.ty.dynamic = false := fun s hs => by
      simpa using List.any_eq_false.1 hd s hs
    have ht : tails (Form.encAll ss xs) = [] := tails_static (by
      clear hh hx hd hne h
      intro a ha
      induction ss generalizing xs with
      | nil => cases xs <;> cases ha
      | cons s ss ih =>
        cases xs with
        | nil => cases ha
        | cons x xs =>
          rcases List.mem_cons.1 ha with rfl | ha
          · exact h0 s (List.mem_cons_self ..)
          · exact ih xs (fun s hs => h0 s (List.mem_cons_of_mem _ hs)) ha)
    have hw : (ss.map Form.headWidth).sum = Form.widths ss := by
      clear hh hx hd hne h ht
      induction ss with
      | nil => rfl
      | cons s ss ih =>
        rw [List.map_cons, List.sum_cons, ih fun s hs => h0 s (List.mem_cons_of_mem _ hs), Form.widths,
          Form.headWidth, h0 s (List.mem_cons_self ..)]
        rfl
    rw [ht, hw]
    rfl

/-! ## Encoders -/

variable [Ext]

theorem part_leaf {c : Cls} {v d f : Nat} (hs : SizesOk c v d f) (hb : BitsOk c v) :
    PartGood (.leaf c v d f) (directEnc c v d f) := by
  have hg := direct_good (f := f) hs hb
  refine ⟨⟨?_, hg.valOk, hg.valErr, fun u x hx _ => hg.enc u x hx⟩, ?_⟩
  · rw [hg.isDyn]; exact congrArg some (clsType_static c v f).symm
  · intro u b hb ho
    obtain ⟨x, hx⟩ := hg.complete u (hg.callVal u b hb) ho
    have := hg.enc u x hx
    rw [hb] at this
    injection this with this
    exact ⟨x, hx, this⟩

theorem part_bytes : PartGood .bytes byteStringEncoder :=
  ⟨bytes_good.toEncBase, fun v b hb ho => by
    have := call_spec false .bytes trivial v b hb ho
    simp only [encBy, Bool.false_eq_true, if_false] at this
    exact this⟩

theorem part_string : PartGood .string textStringEncoder :=
  ⟨string_good.toEncBase, fun v b hb ho => by
    have := call_spec false .string trivial v b hb ho
    simp only [encBy, Bool.false_eq_true, if_false] at this
    exact this⟩

theorem part_sized {s : Form} {e : Encoder} (h : PartGood s e) (k : Nat) :
    PartGood (.sized k s) ⟨some s.ty.dynamic, some (sizedArrayValidate e (some k)),
      encodeElements (sizedArrayValidate e (some k)) e⟩ := by
  refine ⟨⟨rfl, ?_, ?_, ?_⟩, ?_⟩
  · intro v x hx
    obtain ⟨vs, xs, hv, h2, hk, rfl⟩ := denote_sized.1 hx
    exact sizedArrayValidate_ok (sz := some k).2
      ⟨vs, hv, items_valOk h.base h2, fun n hn => by cases hn; exact hk⟩
  · intro v er he
    exact sizedArrayValidate_error (sz := some k) h.base he
  · intro v x hx hl
    obtain ⟨vs, xs, hv, h2, hk, rfl⟩ := denote_sized.1 hx
    exact encodeElements_enc h.base hv (sizedArrayValidate_ok.2
      ⟨vs, hv, items_valOk h.base h2, fun n hn => by cases hn; exact hk⟩) h2 hl
  · intro v b hb hg
    simp only [Form.ty, OnGrid] at hg
    obtain ⟨vs, xs, h1, h2, h3, rfl⟩ := encodeElements_call h.base h.spec hb hg
    obtain ⟨vs', h4, _, h5⟩ := sizedArrayValidate_ok.1 h3
    rw [h1] at h4
    cases h4
    exact ⟨.seq xs, denote_sized.2 ⟨vs, xs, h1, h2, h5 k rfl, rfl⟩, rfl⟩

theorem part_dyn {s : Form} {e : Encoder} (h : PartGood s e) (hlen : LengthsOk s) :
    PartGood (.dyn s) (mkDynamicArray e) := by
  refine ⟨⟨rfl, ?_, ?_, ?_⟩, ?_⟩
  · intro v x hx
    obtain ⟨vs, xs, hv, h2, rfl⟩ := denote_dyn.1 hx
    exact arrayValidate_ok.2 ⟨vs, hv, items_valOk h.base h2⟩
  · intro v er he
    exact arrayValidate_error h.base he
  · intro v x hx hl
    obtain ⟨vs, xs, hv, h2, rfl⟩ := denote_dyn.1 hx
    simp only [Form.enc, List.length_append, be32_length] at hl
    have hlen' := h2.length_eq
    have hn : vs.length < 2 ^ 256 := by
      have := headSize_pos' (es := xs.map fun x => (s.ty.dynamic, s.enc x)) (by
        intro a ha
        obtain ⟨x, hx, rfl⟩ := List.mem_map.1 ha
        obtain ⟨u, _, hu⟩ := forall₂_mem_right h2 hx
        exact (hlen x (denote_of s.ty u x hu)).1)
      rw [List.length_map] at this
      rw [layout_length] at hl
      omega
    simp only [mkDynamicArray, (asListLike_weight hv).2.2, ok_bind, encodeUint256_eq,
      encodeElements_enc h.base hv (arrayValidate_ok.2 ⟨vs, hv, items_valOk h.base h2⟩) h2 (by omega),
      pure_eq_ok, Form.enc]
    rw [if_pos hn, hlen', ok_bind]
  · intro v b hb hg
    simp only [Form.ty, OnGrid] at hg
    simp only [mkDynamicArray, bind_eq_ok] at hb
    obtain ⟨len, hl, sz, hsz, els, hels, he⟩ := hb
    obtain ⟨vs, xs, h1, h2, _, rfl⟩ := encodeElements_call h.base h.spec hels hg
    refine ⟨.seq xs, denote_dyn.2 ⟨vs, xs, h1, h2, rfl⟩, ?_⟩
    rw [(asListLike_weight h1).2.2] at hl
    injection hl with hl
    subst hl
    rw [encodeUint256_eq] at hsz
    split at hsz
    · injection hsz with hsz
      subst hsz
      injection he with he
      rw [← he, h2.length_eq]
      rfl
    · cases hsz

/-- The encodings of the components. -/
def encList : List Form → List Val → List Bytes
  | s :: ss, x :: xs => s.enc x :: encList ss xs
  | _, _ => []

theorem encList_elems {ss : List Form} {es : List Encoder} (h : List.Forall₂ PartGood ss es)
    (xs : List Val) : elems es (encList ss xs) = Form.encAll ss xs := by
  induction h generalizing xs with
  | nil => cases xs <;> rfl
  | cons h1 _ ih =>
    cases xs with
    | nil => rfl
    | cons x xs => simp only [encList, elems, Form.encAll, h1.base.dyn_eq, ih]

theorem part_callAll {ss : List Form} {es : List Encoder} (h : List.Forall₂ PartGood ss es)
    {vs : List PyVal} {xs : List Val} (hd : denoteAll (Form.tys ss) vs = some xs)
    (hm : ∀ a ∈ Form.encAll ss xs, a.2.length < 2 ^ 256) : callAll es vs = .ok (encList ss xs) := by
  induction h generalizing vs xs with
  | nil =>
    cases vs with
    | nil => cases hd; rfl
    | cons v vs => cases hd
  | @cons s e ss es h1 _ ih =>
    cases vs with
    | nil => cases hd
    | cons u us =>
      simp only [Form.tys] at hd
      obtain ⟨y, ys, h3, h4, rfl⟩ := denoteAll_cons.1 hd
      simp only [Form.encAll, List.mem_cons, forall_eq_or_imp] at hm
      simp only [encList, callAll, h1.base.enc u y h3 hm.1, ok_bind, ih h4 hm.2, pure_eq_ok]

theorem part_callAll_spec {ss : List Form} {es : List Encoder} (h : List.Forall₂ PartGood ss es)
    {vs : List PyVal} {bs : List Bytes} (hl : vs.length = ss.length) (hg : OnGridAll (Form.tys ss) vs)
    (hb : callAll es vs = .ok bs) : ∃ xs, denoteAll (Form.tys ss) vs = some xs ∧ bs = encList ss xs := by
  induction h generalizing vs bs with
  | nil =>
    cases vs with
    | nil => cases hb; exact ⟨[], rfl, rfl⟩
    | cons v vs => simp at hl
  | @cons s e ss es h1 _ ih =>
    cases vs with
    | nil => simp at hl
    | cons u us =>
      simp only [Form.tys] at hg ⊢
      obtain ⟨c, cs, h2, h3, rfl⟩ := callAll_ok_cons hb
      simp only [OnGridAll] at hg
      obtain ⟨x, hx, rfl⟩ := h1.spec u c h2 hg.1
      obtain ⟨xs, hxs, rfl⟩ := ih (by simpa using hl) hg.2 h3
      exact ⟨x :: xs, denoteAll_cons.2 ⟨x, xs, hx, hxs, rfl⟩, rfl⟩

theorem part_tuple {ss : List Form} {es : List Encoder} (h : List.Forall₂ PartGood ss es) :
    PartGood (.tuple ss) (mkTuple es) := by
  have hlen : ss.length = es.length := h.length_eq
  have hval : ∀ v vs xs, asListLike? v = some vs → denoteAll (Form.tys ss) vs = some xs →
      tupleValidate es v = .ok () := by
    intro v vs xs hv hd
    have key : vs.length = es.length ∧ tupleValidateItems vs es = .ok () := by
      clear hlen hv
      induction h generalizing vs xs with
      | nil =>
        cases vs with
        | nil => exact ⟨rfl, rfl⟩
        | cons v vs => cases hd
      | @cons s e ss es h1 _ ih =>
        cases vs with
        | nil => cases hd
        | cons u us =>
          simp only [Form.tys] at hd
          obtain ⟨y, ys, h3, h4, rfl⟩ := denoteAll_cons.1 hd
          obtain ⟨h5, h6⟩ := ih us ys h4
          refine ⟨by simp [h5], ?_⟩
          simp only [tupleValidateItems, unit_bind_ok, h1.base.validateOrCall_eq]
          exact ⟨h1.base.valOk u y h3, h6⟩
    simp only [tupleValidate, hv]
    rw [if_neg (by simp [key.1])]
    exact key.2
  refine ⟨⟨?_, ?_, ?_, ?_⟩, ?_⟩
  · simp only [mkTuple, Form.ty, Ty.dynamic, tys_any]
    congr 1
    clear hval hlen
    induction h with
    | nil => rfl
    | cons h1 _ ih => simp only [List.any_cons, h1.base.dyn_eq, ih]
  · intro v x hx
    obtain ⟨vs, xs, hv, h2, rfl⟩ := denote_tuple.1 hx
    exact hval v vs xs hv h2
  · intro v er he
    change tupleValidate es v = _ at he
    unfold tupleValidate at he
    split at he
    · rw [invalidate_eq] at he; cases he; exact (shown_refusal _ rfl).of _
    · split at he
      · rw [invalidate_eq] at he; cases he; exact (shown_refusal _ rfl).of _
      · clear hval hlen
        rename_i vs hv hl
        suffices hs : ∃ u t, (t, u) ∈ (Form.tys ss).zip vs ∧ Refused t u er by
          obtain ⟨u, t, ht, hr⟩ := hs
          exact hr.item hv (List.of_mem_zip ht).2 (fun hb => boundsPrintableAll_iff.1 hb t (List.of_mem_zip ht).1)
            fun ho => ⟨vs, hv, holdsOddAny_of ht ho⟩
        clear hl hv
        induction h generalizing vs with
        | nil => cases vs <;> cases he
        | @cons s e ss es h1 _ ih =>
          cases vs with
          | nil => cases he
          | cons u us =>
            simp only [tupleValidateItems, bind_eq_error, h1.base.validateOrCall_eq] at he
            rcases he with he | ⟨_, _, he⟩
            · exact ⟨u, s.ty, by simp [Form.tys], h1.base.valErr u er he⟩
            · obtain ⟨u', t', ht, hr⟩ := ih us he
              exact ⟨u', t', by simp [Form.tys, ht], hr⟩
  · intro v x hx hl
    obtain ⟨vs, xs, hv, h2, rfl⟩ := denote_tuple.1 hx
    simp only [Form.enc] at hl ⊢
    have hc := part_callAll h h2 (fun a ha => by have := elem_length_le ha; omega)
    have he := encList_elems h xs
    rcases tupleEncode_spec hv (hval v vs xs hv h2) hc with h3 | ⟨_, h3⟩
    · rw [he] at h3; exact h3
    · rw [he] at h3; omega
  · intro v b hb hg
    obtain ⟨vs, bs, h1, h2, h3, rfl⟩ := tupleEncode_inv hb
    simp only [Form.ty, OnGrid] at hg
    obtain ⟨xs, h4, rfl⟩ := part_callAll_spec h (by omega) (hg vs h1) h3
    exact ⟨.seq xs, denote_tuple.2 ⟨vs, xs, h1, h4, rfl⟩, by rw [encList_elems h]; rfl⟩

/-! ## Decoders -/

omit [Ext] in
theorem reckoned_dynamic {s : Form} (h : s.ty.dynamic = true) : s.reckoned = 1 := by
  cases s <;> first | rfl | skip
  rename_i k s
  have h : s.ty.dynamic = true := h
  simp only [Form.reckoned, h, if_true]

omit [Ext] in
theorem reckoned_sum {ss : List Form} {ds : List Decoder} (h : List.Forall₂ PartDec ss ds) :
    lenOfHead (ds.map wrapDyn) = (ss.map Form.reckoned).sum := by
  induction h with
  | nil => rfl
  | @cons s d ss ds h1 _ ih =>
    simp only [lenOfHead, List.map_cons, List.sum_cons] at ih ⊢
    rw [ih]
    congr 1
    have hd : d.dyn = s.ty.dynamic := by rw [Decoder.dyn, h1.isDyn]; rfl
    unfold wrapDyn
    rw [hd]
    cases hs : s.ty.dynamic with
    | true => rw [reckoned_dynamic hs]; rfl
    | false => exact h1.size hs

theorem partRel_each {ss : List Form} {vs : List PyVal} {xs : List Val}
    (h : denoteAll (Form.tys ss) vs = some xs) :
    Each (ss.map partRel) vs (toPyAll (Form.tys ss) xs) := by
  induction ss generalizing vs xs with
  | nil =>
    cases vs with
    | nil => cases h; exact .nil
    | cons v vs => cases h
  | cons s ss ih =>
    cases vs with
    | nil => cases h
    | cons u us =>
      simp only [Form.tys] at h ⊢
      obtain ⟨y, ys, h3, h4, rfl⟩ := denoteAll_cons.1 h
      exact .cons ⟨y, h3, rfl⟩ (ih h4)

theorem each_denotes {ss : List Form} {vs vs' : List PyVal} (h : Each (ss.map partRel) vs vs') :
    ∃ xs, denoteAll (Form.tys ss) vs = some xs := by
  induction ss generalizing vs vs' with
  | nil => cases h; exact ⟨[], rfl⟩
  | cons s ss ih =>
    cases h with
    | cons h1 h2 =>
      obtain ⟨x, hx, _⟩ := h1
      obtain ⟨xs, hxs⟩ := ih h2
      exact ⟨x :: xs, denoteAll_cons.2 ⟨x, xs, hx, hxs, rfl⟩⟩

theorem denoteAll_ofAll {ss : List Form} {vs : List PyVal} {xs : List Val}
    (h : denoteAll (Form.tys ss) vs = some xs) : Val.OfAll (Form.tys ss) xs ∧ OnGridAll (Form.tys ss) vs ∧
      vs.length = ss.length := by
  induction ss generalizing vs xs with
  | nil =>
    cases vs with
    | nil => cases h; exact ⟨trivial, trivial, rfl⟩
    | cons v vs => cases h
  | cons s ss ih =>
    cases vs with
    | nil => cases h
    | cons u us =>
      simp only [Form.tys] at h ⊢
      obtain ⟨y, ys, h3, h4, rfl⟩ := denoteAll_cons.1 h
      obtain ⟨h5, h6, h7⟩ := ih h4
      exact ⟨⟨denote_of _ _ _ h3, h5⟩, ⟨denote_onGrid _ _ _ h3, h6⟩, by simp [h7]⟩

/-- The heads of the components. -/
theorem part_heads {ss : List Form} {es : List Encoder} (h : List.Forall₂ PartGood ss es)
    (hl : ∀ s ∈ ss, LengthsOk s) {vs vs' : List PyVal} {bs : List Bytes}
    (hR : Each (ss.map partRel) vs vs') (hb : callAll es vs = .ok bs) :
    headSize (elems es bs) = (ss.map Form.headWidth).sum := by
  obtain ⟨xs, hxs⟩ := each_denotes hR
  obtain ⟨h1, h2, h3⟩ := denoteAll_ofAll hxs
  obtain ⟨ys, h4, rfl⟩ := part_callAll_spec h h3 h2 hb
  rw [hxs] at h4
  cases h4
  rw [encList_elems h, encAll_head hl h1]

omit [Ext] in
/-- The first pointer of a tuple with too little room. -/
theorem checkLoop_short {xs : List Elem} {ds : List Decoder} {vs : List PyVal} (h : Backs xs ds vs)
    (fl : Flags) (base lo : Nat) : ∀ (off : Nat) (st : Stream), st.data.length ≤ ssizeMax →
    xs.any (·.1) = true → base + off < lo →
    At st.data st.pos (heads off xs) → At st.data (base + off) (tails xs) →
    tupleCheckLoop fl base lo (ds.map wrapDyn) st = .error .invalidPointer := by
  induction h with
  | nil => intro off st _ h0; cases h0
  | @cons x d v xs ds vs hb _ ih =>
    intro off st hl hany hlo h1 h2
    obtain ⟨dy, b⟩ := x
    have hdy : dy = d.dyn := hb.dyn
    have hpos : 0 < b.length := hb.pos
    obtain ⟨h3, h4, h5⟩ := at_cons h1 h2
    simp only [List.map_cons, tupleCheckLoop]
    cases dy with
    | true =>
      simp only [if_true] at h3 h4 h5
      have hlen := at_length h3.2 hpos
      have hlt := ssize_lt
      have hw : wrapDyn d = headTail d := by rw [wrapDyn, ← hdy, if_pos rfl]
      have hht : (headTail d).isHeadTail = true := rfl
      simp only [hw, hht, if_true, wordAt_decode (by omega) h3.1, ok_bind]
      rw [if_pos (by omega)]
      rfl
    | false =>
      simp only [Bool.false_eq_true, if_false, Nat.add_zero] at h3 h4 h5
      have hw : wrapDyn d = d := by rw [wrapDyn, ← hdy, if_neg (by simp)]
      obtain ⟨p, hp1, hp2, hp3⟩ := hb.back fl (d.isStrict fl) st hl h3 (by rw [← hdy]; simp)
      have hp3 := hp3 hdy.symm
      subst hp3
      simp only [hw, hb.plain, Bool.false_eq_true, if_false, Decoder.call, hp1, ok_bind, pure_eq_ok]
      exact ih off ⟨st.data, st.pos + b.length, st.frames, st.total⟩ hl (by simpa using hany) hlo h4 h5

omit [Ext] in
/-- `TupleDecoder.decode` at the layout of elements with too little room. -/
theorem tupleDecode_short {xs : List Elem} {ds : List Decoder} {vs : List PyVal} (h : Backs xs ds vs)
    (hany : xs.any (·.1) = true) (hlen : headSize xs < 32 * lenOfHead (ds.map wrapDyn))
    (fl : Flags) (st : Stream) (hl : st.data.length ≤ ssizeMax) (hat : At st.data st.pos (layout xs)) :
    tupleDecode fl (ds.map wrapDyn) st = .error .invalidPointer := by
  obtain ⟨h1, h2⟩ := at_append.1 hat
  rw [heads_length] at h2
  simp only [tupleDecode, tupleValidatePointers]
  rw [checkLoop_short h fl st.pos _ (headSize xs) st hl hany (by omega) h1 h2]
  rfl

/-! ## The expressions -/

/-- All that is proved of the objects that an expression of form `s` constructs. -/
structure PartOk (s : Form) (p : Part) (e : Encoder) (d : Decoder) : Prop where
  enc : p.encoder = .ok e
  dec : p.decoder = .ok d
  some : p.isNone = false
  good : PartGood s e
  attrs : PartDec s d
  lengths : LengthsOk s
  back : s.Roomy → Belongs e d (partRel s)

theorem partOk_leaf {c : Cls} {v d f : Nat} {kwargs : List (Key × Option Nat)}
    (h : Sized c kwargs v d f) :
    PartOk (.leaf c v d f) (.fixed c kwargs) (directEnc c v d f) (directDec c v d f) := by
  have hlen : LengthsOk (.leaf c v d f) := by
    intro x hx
    have := encIn_length h.sizes h.bits hx
    refine ⟨?_, fun _ => this⟩
    show 0 < (encIn d (clsType c v f) x).length
    rw [this]
    have h1 := h.sizes.2.1
    have h2 := h.bits
    cases c <;> simp only [BitsOk] at h2 <;> omega
  have hst := clsType_static c v f
  refine ⟨h.encoder, h.decoder, rfl, part_leaf h.sizes h.bits, ⟨congrArg some hst.symm, rfl, fun _ => rfl⟩,
    hlen, fun _ => ?_⟩
  have hg := part_leaf (f := f) h.sizes h.bits
  have hcall : ∀ u x b, denote (clsType c v f) u = some x → (directEnc c v d f).call u = .ok b →
      b = encIn d (clsType c v f) x := by
    intro u x b hx hb
    obtain ⟨y, h1, h2⟩ := hg.spec u b hb (denote_onGrid _ u x hx)
    have h1 : denote (clsType c v f) u = Option.some y := h1
    rw [hx] at h1
    cases h1
    exact h2
  refine ⟨?_, rfl, ?_, ?_⟩
  · rw [hg.base.dyn_eq]; exact hst
  · rintro u u' b ⟨x, hx, rfl⟩ hb
    rw [hcall u x b hx hb]
    exact (hlen x (denote_of _ _ _ hx)).1
  · rintro u u' b ⟨x, hx, rfl⟩ hb fl strict st hl hat _
    have hb' := hcall u x b hx hb
    subst hb'
    have hlx := hlen x (denote_of _ _ _ hx)
    have hp := at_length hat hlx.1
    have hw : (encIn d (clsType c v f) x).length = d := encIn_length h.sizes h.bits (denote_of _ _ _ hx)
    refine ⟨st.pos + d, ?_, by omega, fun _ => by rw [hw]⟩
    exact (direct_decodes h.sizes h.bits hl).2 ⟨x, denote_of _ _ _ hx, hat, rfl, rfl⟩

theorem partOk_bytes : PartOk .bytes .byteString byteStringEncoder (byteStringDecoder (.own true)) := by
  refine ⟨rfl, rfl, rfl, part_bytes, ⟨rfl, rfl, fun h => by cases h⟩, ?_, fun _ =>
    readsBack_weak (readsBack_builtin (t := .bytes) trivial)⟩
  intro x hx
  have := enc_length .bytes trivial x hx
  exact ⟨by show 0 < (enc .bytes x).length; omega, fun h => by cases h⟩

theorem partOk_string : PartOk .string .textString textStringEncoder (stringDecoder (.own true)) := by
  refine ⟨rfl, rfl, rfl, part_string, ⟨rfl, rfl, fun h => by cases h⟩, ?_, fun _ =>
    readsBack_weak (readsBack_builtin (t := .string) trivial)⟩
  intro x hx
  have := enc_length .string trivial x hx
  exact ⟨by show 0 < (enc .string x).length; omega, fun h => by cases h⟩

theorem forall₂_partRel {s : Form} {vs : List PyVal} {xs : List Val}
    (h : List.Forall₂ (fun v x => denote s.ty v = some x) vs xs) :
    List.Forall₂ (partRel s) vs (xs.map (toPy s.ty)) := by
  induction h with
  | nil => exact .nil
  | cons h1 _ ih => exact .cons ⟨_, h1, rfl⟩ ih

theorem partOk_sized {s : Form} {p : Part} {e : Encoder} {d : Decoder} (h : PartOk s p e d) {k : Nat}
    (hk : 0 < k) : ∃ E D, PartOk (.sized k s) (.sizedArray (some k) p) E D := by
  have hm := sized_made h.good.base.isDyn h.attrs.isDyn k
  refine ⟨_, sizedDec k s.ty.dynamic d, ?_, ?_, rfl, part_sized h.good k, ⟨rfl, rfl, ?_⟩,
    lengths_sized h.lengths hk, fun hr => ?_⟩
  · rw [Part.encoder, h.enc, h.some]
    exact hm.1
  · rw [Part.decoder, h.dec, h.some]
    exact hm.2
  · intro hs
    have hs : s.ty.dynamic = false := hs
    simp only [sizedDec, Form.reckoned, hs, Option.getD_some, Bool.false_eq_true, if_false]
  · refine (fits_sized (h.back hr) hk h.good.base.isDyn h.attrs.isDyn).mono ?_
    rintro v v' ⟨x, hx, rfl⟩
    obtain ⟨vs, xs, hv, h2, _, rfl⟩ := denote_sized.1 hx
    exact ⟨vs, _, isSeqOf_iff.2 hv, rfl, forall₂_partRel h2⟩

theorem partOk_dyn {s : Form} {p : Part} {e : Encoder} {d : Decoder} (h : PartOk s p e d) :
    ∃ E D, PartOk (.dyn s) (.dynamicArray p) E D := by
  refine ⟨mkDynamicArray e, dynDec s.ty.dynamic d, ?_, ?_, rfl, part_dyn h.good h.lengths,
    ⟨rfl, rfl, fun h0 => by cases h0⟩, lengths_dyn, fun hr => ?_⟩
  · rw [Part.encoder, h.enc, h.some]
    rfl
  · rw [Part.decoder, h.dec, h.some]
    unfold mkDynamicArrayD wrapItem dynDec
    simp only [ok_bind, h.attrs.isDyn]
    rfl
  · refine (fits_dyn (h.back hr) h.attrs.isDyn).2.mono ?_
    rintro v v' ⟨x, hx, rfl⟩
    obtain ⟨vs, xs, hv, h2, rfl⟩ := denote_dyn.1 hx
    exact ⟨vs, _, isSeqOf_iff.2 hv, rfl, forall₂_partRel h2⟩

/-- The components of a tuple. -/
structure PartsOk (ss : List Form) (ps : List Part) (es : List Encoder) (ds : List Decoder) : Prop where
  enc : Part.encoders ps = .ok es
  dec : Part.decoders ps = .ok ds
  good : List.Forall₂ PartGood ss es
  attrs : List.Forall₂ PartDec ss ds
  lengths : ∀ s ∈ ss, LengthsOk s
  back : Form.AllRoomy ss → PairsW es ds (ss.map partRel)

theorem partsOk {ss : List Form} (h : ∀ s ∈ ss, ∀ p, Describes p s → ∃ e d, PartOk s p e d) {ps : List Part}
    (hd : DescribesAll ps ss) : ∃ es ds, PartsOk ss ps es ds := by
  induction ss generalizing ps with
  | nil =>
    cases ps with
    | nil => exact ⟨[], [], rfl, rfl, .nil, .nil, by simp, fun _ => .nil⟩
    | cons p ps => simp only [DescribesAll] at hd
  | cons s ss ih =>
    cases ps with
    | nil => simp only [DescribesAll] at hd
    | cons p ps =>
      simp only [DescribesAll] at hd
      obtain ⟨e, d, h1⟩ := h s (List.mem_cons_self ..) p hd.1
      obtain ⟨es, ds, h2⟩ := ih (fun s hs => h s (List.mem_cons_of_mem _ hs)) hd.2
      refine ⟨e :: es, d :: ds, ?_, ?_, .cons h1.good h2.good, .cons h1.attrs h2.attrs, ?_, ?_⟩
      · rw [Part.encoders, h1.enc, h2.enc]; rfl
      · rw [Part.decoders, h1.dec, h2.dec]; rfl
      · intro s' hs'
        rcases List.mem_cons.1 hs' with rfl | hs'
        · exact h1.lengths
        · exact h2.lengths s' hs'
      · intro hr
        simp only [Form.AllRoomy] at hr
        exact .cons (h1.back hr.1) (h2.back hr.2)

theorem parts_dyn {ss : List Form} {es : List Encoder} (h : List.Forall₂ PartGood ss es) :
    es.any (·.dyn) = Ty.anyDynamic (Form.tys ss) := by
  rw [tys_any]
  induction h with
  | nil => rfl
  | cons h1 _ ih => simp only [List.any_cons, h1.base.dyn_eq, ih]

theorem partOk_tuple {ss : List Form} {ps : List Part} {es : List Encoder} {ds : List Decoder}
    (h : PartsOk ss ps es ds) (hne : ss ≠ []) : PartOk (.tuple ss) (.tuple ps) (mkTuple es) (mkTupleD ds) := by
  have hes : es ≠ [] := by
    intro h0
    have := h.good.length_eq
    rw [h0] at this
    exact hne (List.length_eq_zero_iff.1 this)
  refine ⟨?_, ?_, rfl, part_tuple h.good, ⟨?_, rfl, fun _ => rfl⟩, lengths_tuple h.lengths hne, fun hr => ?_⟩
  · rw [Part.encoder, h.enc]; rfl
  · rw [Part.decoder, h.dec]; rfl
  · simp only [mkTupleD, Form.ty, Ty.dynamic, tys_any]
    congr 1
    have ha := h.attrs
    clear h hes hne
    induction ha with
    | nil => rfl
    | @cons s d ss ds h1 _ ih =>
      simp only [List.map_cons, List.any_cons, ih]
      congr 1
      have hd : d.dyn = s.ty.dynamic := by rw [Decoder.dyn, h1.isDyn]; rfl
      unfold wrapDyn
      rw [hd]
      cases hs : s.ty.dynamic with
      | true => rfl
      | false => simp only [Bool.false_eq_true, if_false, hd, hs]
  · simp only [Form.Roomy] at hr
    refine (fits_tuple (h.back hr.1) hes ?_).mono ?_
    · intro vs vs' bs hR hb ha
      rw [reckoned_sum h.attrs, part_heads h.good h.lengths hR hb]
      exact hr.2 (by rw [← parts_dyn h.good]; exact ha)
    · rintro v v' ⟨x, hx, rfl⟩
      obtain ⟨vs, xs, hv, h2, rfl⟩ := denote_tuple.1 hx
      exact ⟨vs, _, isSeqOf_iff.2 hv, rfl, partRel_each h2⟩

theorem describes_ne {ps : List Part} {ss : List Form} (h : DescribesAll ps ss) (hne : ps ≠ []) : ss ≠ [] := by
  rintro rfl
  cases ps with
  | nil => exact hne rfl
  | cons p ps => simp only [DescribesAll] at h

/-- Every expression that has a form. -/
theorem partOk (s : Form) : ∀ p, Describes p s → ∃ e d, PartOk s p e d := by
  refine Spec.Form.ind (P := fun s => ∀ p, Describes p s → ∃ e d, PartOk s p e d) ?_ ?_ ?_ ?_ ?_ ?_ s
  · intro c v d f p h
    cases p <;> simp only [Describes] at h
    obtain ⟨rfl, h⟩ := h
    exact ⟨_, _, partOk_leaf h⟩
  · intro p h
    cases p <;> simp only [Describes] at h
    exact ⟨_, _, partOk_bytes⟩
  · intro p h
    cases p <;> simp only [Describes] at h
    exact ⟨_, _, partOk_string⟩
  · intro k s ih p h
    cases p <;> try simp only [Describes] at h
    rename_i n p
    cases n with
    | none => simp only [Describes] at h
    | some n =>
      simp only [Describes] at h
      obtain ⟨rfl, hk, h⟩ := h
      obtain ⟨e, d, h1⟩ := ih p h
      exact partOk_sized h1 hk
  · intro s ih p h
    cases p <;> simp only [Describes] at h
    obtain ⟨e, d, h1⟩ := ih _ h
    exact partOk_dyn h1
  · intro ss ih p h
    cases p <;> simp only [Describes] at h
    obtain ⟨es, ds, h1⟩ := partsOk ih h.2
    exact ⟨_, _, partOk_tuple h1 (describes_ne h.2 h.1)⟩

end EthAbi
