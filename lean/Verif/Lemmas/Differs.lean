import Verif.Lemmas.Lengths
import Verif.Lemmas.Accept
import Verif.Spec.Differs

/-! # What a change in one place of the argument changes in the encoding -/
namespace EthAbi
open Spec

theorem heads_around (d : Bool) {c c' : Bytes} (hl : c.length = c'.length) (xs ys : List Elem) (off : Nat) :
    ∃ p q, heads off (xs ++ (d, c) :: ys) = p ++ (if d then [] else c) ++ q ∧
      heads off (xs ++ (d, c') :: ys) = p ++ (if d then [] else c') ++ q := by
  induction xs generalizing off with
  | nil =>
    cases d
    · exact ⟨[], heads off ys, by simp [heads], by simp [heads]⟩
    · refine ⟨be32 off, heads (off + c.length) ys, by simp [heads], by simp [heads, hl]⟩
  | cons a xs ih =>
    obtain ⟨e, b⟩ := a
    cases e
    · obtain ⟨p, q, h1, h2⟩ := ih off
      exact ⟨b ++ p, q, by simp [heads, h1], by simp [heads, h2]⟩
    · obtain ⟨p, q, h1, h2⟩ := ih (off + b.length)
      exact ⟨be32 off ++ p, q, by simp [heads, h1], by simp [heads, h2]⟩

theorem tails_around (d : Bool) (c c' : Bytes) (xs ys : List Elem) :
    ∃ p q, tails (xs ++ (d, c) :: ys) = p ++ (if d then c else []) ++ q ∧
      tails (xs ++ (d, c') :: ys) = p ++ (if d then c' else []) ++ q := by
  induction xs with
  | nil => exact ⟨[], tails ys, by simp [tails], by simp [tails]⟩
  | cons a xs ih =>
    obtain ⟨e, b⟩ := a
    obtain ⟨p, q, h1, h2⟩ := ih
    exact ⟨(if e then b else []) ++ p, q, by simp [tails, h1], by simp [tails, h2]⟩

theorem headSize_around (d : Bool) {c c' : Bytes} (hl : c.length = c'.length) (xs ys : List Elem) :
    headSize (xs ++ (d, c) :: ys) = headSize (xs ++ (d, c') :: ys) := by
  induction xs with
  | nil => simp [headSize, hl]
  | cons a xs ih => obtain ⟨e, b⟩ := a; simp [headSize, ih]

theorem layout_around (d : Bool) {c c' : Bytes} (hl : c.length = c'.length) (xs ys : List Elem) :
    ∃ p q, layout (xs ++ (d, c) :: ys) = p ++ c ++ q ∧ layout (xs ++ (d, c') :: ys) = p ++ c' ++ q := by
  obtain ⟨p, q, h1, h2⟩ := heads_around d hl xs ys (headSize (xs ++ (d, c) :: ys))
  obtain ⟨p', q', h3, h4⟩ := tails_around d c c' xs ys
  simp only [layout, ← headSize_around d hl, h1, h2, h3, h4]
  cases d
  · exact ⟨p, q ++ (p' ++ q'), by simp, by simp⟩
  · exact ⟨p ++ q ++ p', q', by simp, by simp⟩

theorem callAll_around {es es' : List Encoder} {e : Encoder} {vs vs' : List PyVal} {v : PyVal} {bs : List Bytes}
    (hl : es.length = vs.length) (h : callAll (es ++ e :: es') (vs ++ v :: vs') = .ok bs) :
    ∃ b c b', callAll es vs = .ok b ∧ e.call v = .ok c ∧ callAll es' vs' = .ok b' ∧ bs = b ++ c :: b' ∧
      b.length = es.length := by
  induction es generalizing vs bs with
  | nil =>
    cases vs with
    | nil =>
      obtain ⟨c, b', h1, h2, rfl⟩ := callAll_ok_cons h
      exact ⟨[], c, b', rfl, h1, h2, rfl, rfl⟩
    | cons _ _ => simp at hl
  | cons e0 es ih =>
    cases vs with
    | nil => simp at hl
    | cons v0 vs =>
      obtain ⟨b0, bs', h1, h2, rfl⟩ := callAll_ok_cons h
      obtain ⟨b, c, b', h3, h4, h5, rfl, h7⟩ := ih (by simpa using hl) h2
      exact ⟨b0 :: b, c, b', by simp [callAll, h1, h3], h4, h5, rfl, by simp [h7]⟩

theorem elems_around {es es' : List Encoder} {e : Encoder} {b b' : List Bytes} {c : Bytes} (hl : b.length = es.length) :
    elems (es ++ e :: es') (b ++ c :: b') = elems es b ++ (e.dyn, c) :: elems es' b' := by
  induction es generalizing b with
  | nil =>
    cases b with
    | nil => rfl
    | cons _ _ => simp at hl
  | cons e0 es ih =>
    cases b with
    | nil => simp at hl
    | cons b0 b => simp [elems, ih (show b.length = es.length by simpa using hl)]

/-- The two results are the same except for a piece of `n` bytes, which is the end of what the encoder of the place
makes of the two values. -/
def OnePiece [Ext] (pk : Bool) (l : Ty) (u u' : PyVal) (n : Nat) (c c' : Bytes) : Prop :=
  ∃ p q f w w', c = p ++ w ++ q ∧ c' = p ++ w' ++ q ∧ w.length = n ∧ w'.length = n ∧
    (encOf pk l).call u = .ok (f ++ w) ∧ (encOf pk l).call u' = .ok (f ++ w')

theorem OnePiece.around [Ext] {pk : Bool} {l : Ty} {u u' : PyVal} {n : Nat} {c c' : Bytes} (h : OnePiece pk l u u' n c c')
    (a z : Bytes) : OnePiece pk l u u' n (a ++ c ++ z) (a ++ c' ++ z) := by
  obtain ⟨p, q, f, w, w', rfl, rfl, h3, h4, h5, h6⟩ := h
  exact ⟨a ++ p, q ++ z, f, w, w', by simp, by simp, h3, h4, h5, h6⟩

theorem OnePiece.length [Ext] {pk : Bool} {l : Ty} {u u' : PyVal} {n : Nat} {c c' : Bytes} (h : OnePiece pk l u u' n c c') :
    c.length = c'.length := by
  obtain ⟨p, q, f, w, w', rfl, rfl, h3, h4, _, _⟩ := h
  simp [h3, h4]

/-- One of the elements has changed. -/
theorem callAll_onePiece [Ext] {pk : Bool} {l : Ty} {u u' : PyVal} {n : Nat} {es es' : List Encoder} {e : Encoder}
    {vs vs' : List PyVal} {v v' : PyVal} {bs bs' : List Bytes} (hl : es.length = vs.length)
    (hp : ∀ c c', e.call v = .ok c → e.call v' = .ok c' → OnePiece pk l u u' n c c')
    (h : callAll (es ++ e :: es') (vs ++ v :: vs') = .ok bs) (h' : callAll (es ++ e :: es') (vs ++ v' :: vs') = .ok bs') :
    OnePiece pk l u u' n (layout (elems (es ++ e :: es') bs)) (layout (elems (es ++ e :: es') bs')) := by
  obtain ⟨b, c, d, h1, h2, h3, rfl, h4⟩ := callAll_around hl h
  obtain ⟨b', c', d', h1', h2', h3', rfl, h4'⟩ := callAll_around hl h'
  rw [h1] at h1'
  cases h1'
  rw [h3] at h3'
  cases h3'
  rw [elems_around h4, elems_around h4]
  have hpc := hp c c' h2 h2'
  obtain ⟨p, q, h5, h6⟩ := layout_around e.dyn hpc.length (elems es b) (elems es' d)
  rw [h5, h6]
  exact hpc.around p q

theorem items_onePiece [Ext] {pk : Bool} {l : Ty} {u u' : PyVal} {n : Nat} {e : Encoder}
    {before after : List PyVal} {v v' : PyVal} {bs bs' : List Bytes}
    (hp : ∀ c c', e.call v = .ok c → e.call v' = .ok c' → OnePiece pk l u u' n c c')
    (h : callAll ((before ++ v :: after).map fun _ => e) (before ++ v :: after) = .ok bs)
    (h' : callAll ((before ++ v' :: after).map fun _ => e) (before ++ v' :: after) = .ok bs') :
    OnePiece pk l u u' n (layout (elems ((before ++ v :: after).map fun _ => e) bs))
      (layout (elems ((before ++ v' :: after).map fun _ => e) bs')) := by
  simp only [List.map_append, List.map_cons] at h h' ⊢
  exact callAll_onePiece (by simp) hp h h'

theorem encsOf_append [Ext] (pk : Bool) (ts ts' : List Ty) : encsOf pk (ts ++ ts') = encsOf pk ts ++ encsOf pk ts' := by
  induction ts with
  | nil => rfl
  | cons t ts ih => simp [encsOf, ih]

theorem wordLeaf_width [Ext] {pk : Bool} {t : Ty} {w : Nat} (hw : IsWord t w) (hv : t.Valid) {v : PyVal} {b : Bytes}
    (hb : (encOf pk t).call v = .ok b) : b.length = wordWidth pk w := by
  have h := takes_call pk t hv v b hb
  generalize b.length = n at h
  cases hw <;> (cases h; rfl)

theorem text_pieces (pk : Bool) (t : Ty) (x : Val) (b : Bytes)
    (hx : encBy pk t x = if pk then b else be32 b.length ++ padRight32 b) :
    encBy pk t x = (if pk then [] else be32 b.length) ++ (if pk then b else padRight32 b) ∧
      (if pk then b else padRight32 b).length = textWidth pk b.length - countWidth pk := by
  rw [hx]
  cases pk
  · exact ⟨rfl, by simp only [Bool.false_eq_true, if_false, padRight32_width, textWidth, countWidth]; omega⟩
  · exact ⟨rfl, rfl⟩

theorem bytes_text [Ext] {pk : Bool} {u : PyVal} {b c : Bytes} (hb : IsBytes u b)
    (hc : (encOf pk .bytes).call u = .ok c) : c = encBy pk .bytes (.raw b) := by
  obtain ⟨x, h1, rfl⟩ := call_spec pk .bytes trivial u c hc (by simp [OnGrid])
  cases hb <;> (simp only [denote, asBytes?, Option.map_some, Option.some.injEq] at h1; subst h1; rfl)

theorem string_text [Ext] {pk : Bool} {s : PyStr} {c : Bytes}
    (hc : (encOf pk .string).call (.str s) = .ok c) : c = encBy pk .string (.text s) := by
  obtain ⟨x, h1, rfl⟩ := call_spec pk .string trivial (.str s) c hc (by simp [OnGrid])
  simp only [denote] at h1
  split at h1
  · cases h1; rfl
  · cases h1

theorem string_enc {pk : Bool} {s : PyStr} {b : Bytes} (hb : utf8Encode? s = some b) :
    encBy pk .string (.text s) = if pk then b else be32 b.length ++ padRight32 b := by
  cases pk
  · simp only [encBy, Bool.false_eq_true, if_false, enc, hb]
  · simp only [encBy, if_true, encPacked, textBytes, hb, Option.getD_some]

theorem differs_call [Ext] {pk : Bool} {l : Ty} {u u' : PyVal} {t : Ty} {v v' : PyVal} {n : Nat}
    (h : Differs pk l u u' t v v' n) : t.Valid → ∀ c c', (encOf pk t).call v = .ok c →
      (encOf pk t).call v' = .ok c' → OnePiece pk l u u' n c c' := by
  induction h with
  | word hw =>
    intro hv c c' hc hc'
    exact ⟨[], [], [], c, c', by simp, by simp, wordLeaf_width hw hv hc, wordLeaf_width hw hv hc', hc, hc'⟩
  | @bytes b b' hl h1 h2 h3 =>
    intro hv c c' hc hc'
    subst hl
    obtain rfl := bytes_text h1 hc
    obtain rfl := bytes_text h2 hc'
    obtain ⟨h4, h5⟩ := text_pieces pk .bytes (.raw b) b (by cases pk <;> rfl)
    obtain ⟨h6, h7⟩ := text_pieces pk .bytes (.raw b') b' (by cases pk <;> rfl)
    rw [h4] at hc ⊢
    rw [h6] at hc' ⊢
    rw [← h3] at hc' h7 ⊢
    exact ⟨_, [], _, _, _, by rw [List.append_nil], by rw [List.append_nil], h5, h7, hc, hc'⟩
  | @string s s' b b' hl h1 h2 h3 h4 h5 =>
    intro hv c c' hc hc'
    subst hl h1 h2
    obtain rfl := string_text hc
    obtain rfl := string_text hc'
    obtain ⟨h6, h7⟩ := text_pieces pk .string (.text s) b (string_enc h3)
    obtain ⟨h8, h9⟩ := text_pieces pk .string (.text s') b' (string_enc h4)
    rw [h6] at hc ⊢
    rw [h8] at hc' ⊢
    rw [← h5] at hc' h9 ⊢
    exact ⟨_, [], _, _, _, by rw [List.append_nil], by rw [List.append_nil], h7, h9, hc, hc'⟩
  | @sized k t v v' w w' before after n h1 h2 _ ih =>
    intro hv c c' hc hc'
    simp only [Ty.Valid] at hv
    have hb : encodeElements (sizedArrayValidate (encOf pk t) (some k)) (encOf pk t) v = .ok c := by
      cases pk <;> exact hc
    have hb' : encodeElements (sizedArrayValidate (encOf pk t) (some k)) (encOf pk t) v' = .ok c' := by
      cases pk <;> exact hc'
    obtain ⟨vs, bs, h3, _, h4, rfl⟩ := encodeElements_raw hb
    obtain ⟨vs', bs', h3', _, h4', rfl⟩ := encodeElements_raw hb'
    rw [isSeqOf_iff.1 h1] at h3
    rw [isSeqOf_iff.1 h2] at h3'
    cases h3
    cases h3'
    exact items_onePiece (ih hv.2) h4 h4'
  | @dyn t v v' w w' before after n h1 h2 _ ih =>
    intro hv c c' hc hc'
    simp only [Ty.Valid] at hv
    cases pk
    · have hb : (mkDynamicArray (encOf false t)).call v = .ok c := hc
      have hb' : (mkDynamicArray (encOf false t)).call v' = .ok c' := hc'
      simp only [mkDynamicArray, bind_eq_ok] at hb hb'
      obtain ⟨len, hl, sz, hsz, els, hels, he⟩ := hb
      obtain ⟨len', hl', sz', hsz', els', hels', he'⟩ := hb'
      rw [(asListLike_weight (isSeqOf_iff.1 h1)).2.2] at hl
      rw [(asListLike_weight (isSeqOf_iff.1 h2)).2.2] at hl'
      have hll : (before ++ w :: after).length = (before ++ w' :: after).length := by simp
      rw [← hll, hl] at hl'
      cases hl'
      rw [hsz] at hsz'
      cases hsz'
      obtain ⟨vs, bs, h3, _, h4, rfl⟩ := encodeElements_raw hels
      obtain ⟨vs', bs', h3', _, h4', rfl⟩ := encodeElements_raw hels'
      rw [isSeqOf_iff.1 h1] at h3
      rw [isSeqOf_iff.1 h2] at h3'
      cases h3
      cases h3'
      injection he with he
      injection he' with he'
      have := (items_onePiece (ih hv) h4 h4').around sz []
      simp only [List.append_nil] at this
      rw [← he, ← he']
      exact this
    · have hb : encodeElements (sizedArrayValidate (encOf true t) none) (encOf true t) v = .ok c := hc
      have hb' : encodeElements (sizedArrayValidate (encOf true t) none) (encOf true t) v' = .ok c' := hc'
      obtain ⟨vs, bs, h3, _, h4, rfl⟩ := encodeElements_raw hb
      obtain ⟨vs', bs', h3', _, h4', rfl⟩ := encodeElements_raw hb'
      rw [isSeqOf_iff.1 h1] at h3
      rw [isSeqOf_iff.1 h2] at h3'
      cases h3
      cases h3'
      exact items_onePiece (ih hv) h4 h4'
  | @tuple t ts ts' v v' w w' before after n h0 h1 h2 _ ih =>
    intro hv c c' hc hc'
    simp only [Ty.Valid, Spec.Ty.allValid_iff] at hv
    obtain ⟨vs, bs, h3, _, h4, rfl⟩ := tupleEncode_raw (show tupleEncode (encsOf pk (ts ++ t :: ts')) v = .ok c from hc)
    obtain ⟨vs', bs', h3', _, h4', rfl⟩ := tupleEncode_raw
      (show tupleEncode (encsOf pk (ts ++ t :: ts')) v' = .ok c' from hc')
    rw [isSeqOf_iff.1 h1] at h3
    rw [isSeqOf_iff.1 h2] at h3'
    cases h3
    cases h3'
    simp only [encsOf_append, encsOf] at h4 h4' ⊢
    exact callAll_onePiece (by rw [encsOf_length, h0]) (ih (hv.2 t (by simp))) h4 h4'

/-! ## The changed argument is accepted -/

theorem callAll_replace {es es' : List Encoder} {e : Encoder} {vs vs' : List PyVal} {v v' : PyVal} {bs : List Bytes} {c' : Bytes}
    (hl : es.length = vs.length) (h : callAll (es ++ e :: es') (vs ++ v :: vs') = .ok bs) (hc : e.call v' = .ok c') :
    ∃ bs', callAll (es ++ e :: es') (vs ++ v' :: vs') = .ok bs' := by
  induction es generalizing vs bs with
  | nil =>
    cases vs with
    | nil =>
      obtain ⟨c, b', h1, h2, rfl⟩ := callAll_ok_cons h
      exact ⟨c' :: b', by simp [callAll, hc, h2]⟩
    | cons _ _ => simp at hl
  | cons e0 es ih =>
    cases vs with
    | nil => simp at hl
    | cons v0 vs =>
      obtain ⟨b0, bs', h1, h2, rfl⟩ := callAll_ok_cons h
      obtain ⟨bs', h3⟩ := ih (by simpa using hl) h2
      exact ⟨b0 :: bs', by simp [callAll, h1, h3]⟩

theorem slotSum_around (xs ys : List Elem) (d : Bool) (c : Bytes) : c.length ≤ slotSum (xs ++ (d, c) :: ys) := by
  induction xs with
  | nil => simp only [List.nil_append, slotSum]; omega
  | cons a xs ih => obtain ⟨e, b⟩ := a; simp only [List.cons_append, slotSum]; omega

/-- The element in the middle is called, and is not longer than the whole. -/
theorem callAll_middle {es es' : List Encoder} {e : Encoder} {vs vs' : List PyVal} {v : PyVal} {bs : List Bytes}
    (hl : es.length = vs.length) (h : callAll (es ++ e :: es') (vs ++ v :: vs') = .ok bs) :
    ∃ c, e.call v = .ok c ∧ c.length ≤ (layout (elems (es ++ e :: es') bs)).length := by
  obtain ⟨b, c, d, h1, h2, h3, rfl, h4⟩ := callAll_around hl h
  refine ⟨c, h2, ?_⟩
  rw [elems_around h4, layout_slots]
  exact slotSum_around _ _ _ _

theorem callAll_items_valid [Ext] {pk : Bool} {t : Ty} (hv : t.Valid) {vs : List PyVal} {bs : List Bytes}
    (h : callAll (vs.map fun _ => encOf pk t) vs = .ok bs) : ∀ u ∈ vs, (encOf pk t).validateValue u = .ok () := by
  induction vs generalizing bs with
  | nil => simp
  | cons v vs ih =>
    obtain ⟨b0, bs', h1, h2, rfl⟩ := callAll_ok_cons h
    intro u hu
    rcases List.mem_cons.1 hu with rfl | hu
    · exact (encOf_good pk t hv).callVal u b0 h1
    · exact ih h2 u hu

theorem callAll_tuple_valid [Ext] {pk : Bool} {ts : List Ty} (hv : ∀ t ∈ ts, t.Valid) {vs : List PyVal} {bs : List Bytes}
    (h : callAll (encsOf pk ts) vs = .ok bs) : tupleValidateItems vs (encsOf pk ts) = .ok () := by
  induction ts generalizing vs bs with
  | nil => cases vs <;> rfl
  | cons t ts ih =>
    cases vs with
    | nil => rfl
    | cons v vs =>
      simp only [encsOf] at h
      obtain ⟨b0, bs', h1, h2, rfl⟩ := callAll_ok_cons h
      have hg := encOf_good pk t (hv t (by simp))
      simp only [encsOf, tupleValidateItems, hg.validateOrCall_eq, hg.callVal v b0 h1, ok_bind,
        ih (fun t ht => hv t (by simp [ht])) h2]

theorem arrayValidate_unsized [Ext] (e : Encoder) : arrayValidate e = sizedArrayValidate e none := by
  funext v
  simp only [sizedArrayValidate]
  cases arrayValidate e v <;> rfl

theorem items_replace [Ext] {pk : Bool} {l t : Ty} (hv : t.Valid) {u u' : PyVal} {n : Nat} {before after : List PyVal}
    {w w' : PyVal} {sz : Option Nat} {v v' : PyVal} {c : Bytes} (hlen : c.length < 2 ^ 256)
    (hp : ∀ c c', (encOf pk t).call w = .ok c → (encOf pk t).call w' = .ok c' → OnePiece pk l u u' n c c')
    (ih : ∀ c, (encOf pk t).call w = .ok c → c.length < 2 ^ 256 → ∃ c', (encOf pk t).call w' = .ok c')
    (h1 : IsSeqOf v (before ++ w :: after)) (h2 : IsSeqOf v' (before ++ w' :: after))
    (h : encodeElements (sizedArrayValidate (encOf pk t) sz) (encOf pk t) v = .ok c) :
    ∃ c', encodeElements (sizedArrayValidate (encOf pk t) sz) (encOf pk t) v' = .ok c' := by
  obtain ⟨vs, bs, h3, h4, h5, rfl⟩ := encodeElements_raw h
  rw [isSeqOf_iff.1 h1] at h3
  cases h3
  obtain ⟨vs', h6, _, h7⟩ := sizedArrayValidate_ok.1 h4
  rw [isSeqOf_iff.1 h1] at h6
  cases h6
  have h5' := h5
  simp only [List.map_append, List.map_cons] at h5' hlen
  obtain ⟨ci, hci, hle⟩ := callAll_middle (by simp) h5'
  obtain ⟨ci', hci'⟩ := ih ci hci (by omega)
  obtain ⟨bs', h8⟩ := callAll_replace (by simp) h5' hci'
  have h9 : callAll ((before ++ w' :: after).map fun _ => encOf pk t) (before ++ w' :: after) = .ok bs' := by
    simpa using h8
  have hval : sizedArrayValidate (encOf pk t) sz v' = .ok () :=
    sizedArrayValidate_ok.2 ⟨_, isSeqOf_iff.1 h2, callAll_items_valid hv h9, fun k hk => by simpa using h7 k hk⟩
  rcases encodeElements_spec (isSeqOf_iff.1 h2) hval h9 with h10 | ⟨_, _, _, h10⟩
  · exact ⟨_, h10⟩
  · have := (items_onePiece hp h5 h9).length
    simp only [List.map_append, List.map_cons] at this h10
    omega

theorem differs_accepted [Ext] {pk : Bool} {l : Ty} {u u' : PyVal} {t : Ty} {v v' : PyVal} {n : Nat}
    (h : Differs pk l u u' t v v' n) (hu : ∃ c, (encOf pk l).call u' = .ok c) :
    t.Valid → ∀ c, (encOf pk t).call v = .ok c → c.length < 2 ^ 256 → ∃ c', (encOf pk t).call v' = .ok c' := by
  induction h with
  | word hw => intro _ _ _ _; exact hu
  | bytes hl _ _ _ => intro _ _ _ _; subst hl; exact hu
  | string hl _ _ _ _ _ => intro _ _ _ _; subst hl; exact hu
  | @sized k t v v' w w' before after n h1 h2 hd ih =>
    intro hv c hc hlen
    simp only [Ty.Valid] at hv
    have hb : encodeElements (sizedArrayValidate (encOf pk t) (some k)) (encOf pk t) v = .ok c := by
      cases pk <;> exact hc
    obtain ⟨c', hc'⟩ := items_replace hv.2 hlen (differs_call hd hv.2) (ih hv.2) h1 h2 hb
    exact ⟨c', by cases pk <;> exact hc'⟩
  | @dyn t v v' w w' before after n h1 h2 hd ih =>
    intro hv c hc hlen
    simp only [Ty.Valid] at hv
    cases pk
    · have hb : (mkDynamicArray (encOf false t)).call v = .ok c := hc
      simp only [mkDynamicArray, bind_eq_ok] at hb
      obtain ⟨len, hl, sz, hsz, els, hels, he⟩ := hb
      injection he with he
      rw [arrayValidate_unsized] at hels
      obtain ⟨els', hels'⟩ := items_replace hv (by rw [← he, List.length_append] at hlen; omega) (differs_call hd hv)
        (ih hv) h1 h2 hels
      refine ⟨sz ++ els', ?_⟩
      show (mkDynamicArray (encOf false t)).call v' = .ok (sz ++ els')
      simp only [mkDynamicArray, bind_eq_ok]
      refine ⟨len, ?_, sz, hsz, els', by rw [arrayValidate_unsized]; exact hels', rfl⟩
      rw [(asListLike_weight (isSeqOf_iff.1 h1)).2.2] at hl
      rw [(asListLike_weight (isSeqOf_iff.1 h2)).2.2, ← hl]
      simp
    · have hb : encodeElements (sizedArrayValidate (encOf true t) none) (encOf true t) v = .ok c := hc
      exact items_replace hv hlen (differs_call hd hv) (ih hv) h1 h2 hb
  | @tuple t ts ts' v v' w w' before after n h0 h1 h2 hd ih =>
    intro hv c hc hlen
    simp only [Ty.Valid, Spec.Ty.allValid_iff] at hv
    obtain ⟨vs, bs, h3, h4, h5, rfl⟩ := tupleEncode_raw (show tupleEncode (encsOf pk (ts ++ t :: ts')) v = .ok c from hc)
    rw [isSeqOf_iff.1 h1] at h3
    cases h3
    have h5' := h5
    simp only [encsOf_append, encsOf] at h5' hlen
    have hl : (encsOf pk ts).length = before.length := by rw [encsOf_length, h0]
    obtain ⟨ci, hci, hle⟩ := callAll_middle hl h5'
    obtain ⟨ci', hci'⟩ := ih (hv.2 t (by simp)) ci hci (by omega)
    obtain ⟨bs', h8⟩ := callAll_replace hl h5' hci'
    have h9 : callAll (encsOf pk (ts ++ t :: ts')) (before ++ w' :: after) = .ok bs' := by
      simpa only [encsOf_append, encsOf] using h8
    have hval : tupleValidate (encsOf pk (ts ++ t :: ts')) v' = .ok () := by
      have hll : (before ++ w' :: after).length = (encsOf pk (ts ++ t :: ts')).length := by
        rw [← h4]; simp
      simp only [tupleValidate, isSeqOf_iff.1 h2, hll, ne_eq, not_true_eq_false, if_false]
      exact callAll_tuple_valid hv.2 h9
    rcases tupleEncode_spec (isSeqOf_iff.1 h2) hval h9 with h10 | ⟨_, _, _, h10⟩
    · exact ⟨_, h10⟩
    · have := (callAll_onePiece hl (differs_call hd (hv.2 t (by simp))) h5' h8).length
      simp only [encsOf_append, encsOf] at h10
      omega

end EthAbi
