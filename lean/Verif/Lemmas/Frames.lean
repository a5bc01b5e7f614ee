import Verif.Lemmas.Api

/-! # Decoders leave the frames of the stream as they were -/
namespace EthAbi
open Spec

/-- The stream `st'` has the data and the frames of `st`, and its cursor did not go back and did not
leave the data. -/
structure After (st st' : Stream) : Prop where
  data : st'.data = st.data
  frames : st'.frames = st.frames
  total : st'.total = st.total
  fwd : st.pos ≤ st'.pos
  inside : st.pos ≤ st.data.length → st'.pos ≤ st.data.length

theorem After.refl (st : Stream) : After st st := ⟨rfl, rfl, rfl, Nat.le_refl _, id⟩

theorem After.trans {a b c : Stream} (h1 : After a b) (h2 : After b c) : After a c :=
  ⟨h2.data.trans h1.data, h2.frames.trans h1.frames, h2.total.trans h1.total, h1.fwd.trans h2.fwd,
   fun h => by have := h2.inside; rw [h1.data] at this; exact this (h1.inside h)⟩

/-- Whatever the stream, the decoder returns it tidy. -/
def Tidy (d : Decoder) : Prop := ∀ fl s st v st', d.run fl s st = .ok (v, st') → After st st'

theorem read_after {st : Stream} {n : Nat} {b : Bytes} {st' : Stream}
    (h : st.read n = .ok (b, st')) : After st st' := by
  simp only [Stream.read] at h
  split at h
  · cases h
  · injection h with h
    injection h with h1 h2
    subst h2
    refine ⟨rfl, rfl, rfl, by simp, ?_⟩
    intro hp
    simp only [List.length_take, List.length_drop]
    omega

theorem readFixed_after {n : Nat} {st : Stream} {b : Bytes} {st' : Stream}
    (h : readFixed n st = .ok (b, st')) : After st st' := by
  simp only [readFixed, bind_eq_ok] at h
  obtain ⟨⟨a, st1⟩, h1, h2⟩ := h
  split at h2
  · cases h2
  · injection h2 with h3
    injection h3 with _ h3
    subst h3
    exact read_after h1

theorem decodeUint256_after {st : Stream} {n : Nat} {st' : Stream}
    (h : decodeUint256 st = .ok (n, st')) : After st st' := by
  simp only [decodeUint256, bind_eq_ok] at h
  obtain ⟨⟨a, st1⟩, h1, _, _, h2⟩ := h
  injection h2 with h2
  injection h2 with _ h2
  subst h2
  exact readFixed_after h1

theorem fixed_tidy {vb : Nat} {be : Bool} {fn : Bytes → PyM PyVal} {neg : PyVal → Bool} :
    Tidy (fixedDecoder (decodeFixed32 vb be fn neg)) := by
  intro fl s st v st' h
  simp only [fixedDecoder, decodeFixed32, bind_eq_ok] at h
  obtain ⟨⟨a, st1⟩, h1, _, _, _, _, h2⟩ := h
  injection h2 with h2
  injection h2 with _ h2
  subst h2
  exact readFixed_after h1

theorem readByteString_after {s : Bool} {st : Stream} {b : Bytes} {st' : Stream}
    (h : readByteString s st = .ok (b, st')) : After st st' := by
  simp only [readByteString, bind_eq_ok] at h
  obtain ⟨⟨a, st1⟩, h1, ⟨c, st2⟩, h2, h3⟩ := h
  have : st' = st2 := by
    split at h3
    · repeat' split at h3
      all_goals simp at h3
      all_goals exact h3.2.symm
    · simp at h3
      exact h3.2.symm
  subst this
  exact (decodeUint256_after h1).trans (read_after h2)

theorem byteString_tidy {ref : StrictRef} : Tidy (byteStringDecoder ref) := by
  intro fl s st v st' h
  simp only [byteStringDecoder, bind_eq_ok] at h
  obtain ⟨⟨a, st1⟩, h1, h2⟩ := h
  injection h2 with h2
  injection h2 with _ h2
  subst h2
  exact readByteString_after h1

theorem stringWith_tidy {f : Bytes → PyM PyStr} {ref : StrictRef} :
    Tidy (stringDecoderWith f ref) := by
  intro fl s st v st' h
  simp only [stringDecoderWith, bind_eq_ok] at h
  obtain ⟨⟨a, st1⟩, h1, _, _, h2⟩ := h
  injection h2 with h2
  injection h2 with _ h2
  subst h2
  exact readByteString_after h1

theorem seek_eq {st st' : Stream} {p : Nat} (h : st.seek p = .ok st') : st' = { st with pos := p } := by
  simp only [Stream.seek] at h
  split at h
  · cases h
  · injection h with h; exact h.symm

/-- `push_frame`, a tidy computation, `pop_frame`. -/
theorem frame_after {st st1 st2 st3 : Stream} {off : Nat} (h1 : st.pushFrame off = .ok st1)
    (h2 : After st1 st2) (h3 : st2.popFrame = .ok st3) : st3 = st := by
  have h1 := seek_eq h1
  subst h1
  obtain ⟨d2, p2, f2, t2⟩ := st2
  obtain ⟨hd, hf, ht, _⟩ := h2
  simp only at hd hf ht
  subst hd hf ht
  have h3 := seek_eq h3
  subst h3
  simp

theorem headTail_tidy {d : Decoder} (hd : Tidy d) : Tidy (headTail d) := by
  intro fl s st v st' h
  simp only [headTail, bind_eq_ok] at h
  obtain ⟨⟨off, st1⟩, h1, st2, h2, ⟨w, st3⟩, h3, st4, h4, h5⟩ := h
  injection h5 with h5
  injection h5 with _ h5
  subst h5
  rw [frame_after h2 (hd _ _ _ _ _ h3) h4]
  exact decodeUint256_after h1

theorem wrapDyn_tidy {d : Decoder} (hd : Tidy d) : Tidy (wrapDyn d) := by
  unfold wrapDyn
  split
  · exact headTail_tidy hd
  · exact hd

theorem tupleCheckLoop_after {fl : Flags} {cur en : Nat} {ds : List Decoder}
    (hd : ∀ d ∈ ds, Tidy d) {st st' : Stream} (h : tupleCheckLoop fl cur en ds st = .ok st') :
    After st st' := by
  induction ds generalizing st with
  | nil => injection h with h; subst h; exact .refl _
  | cons d ds ih =>
    have ih := fun st h => ih (st := st) (fun d h => hd d (by simp [h])) h
    simp only [tupleCheckLoop] at h
    split at h
    · simp only [bind_eq_ok] at h
      obtain ⟨⟨off, st2⟩, h3, h4⟩ := h
      split at h4
      · cases h4
      · exact (decodeUint256_after h3).trans (ih _ h4)
    · simp only [bind_eq_ok] at h
      obtain ⟨⟨v, st2⟩, h3, _, h4, h5⟩ := h
      cases h4
      exact (hd d (by simp) _ _ _ _ _ h3).trans (ih _ h5)

theorem seekBack {st st1 st2 : Stream} (h1 : After st st1) (h2 : st1.seek st.pos = .ok st2) :
    st2 = st := by
  rw [seek_eq h2]
  obtain ⟨d, p, f, t⟩ := st1
  obtain ⟨hd, hf, ht, _⟩ := h1
  simp only at hd hf ht
  subst hd hf ht
  rfl

theorem decodeEach_after {fl : Flags} {ds : List Decoder} (hd : ∀ d ∈ ds, Tidy d) {st st' : Stream}
    {vs : List PyVal} (h : decodeEach fl ds st = .ok (vs, st')) : After st st' := by
  induction ds generalizing st vs with
  | nil => injection h with h; injection h with _ h; subst h; exact .refl _
  | cons d ds ih =>
    simp only [decodeEach, bind_eq_ok] at h
    obtain ⟨⟨v, st1⟩, h1, ⟨ws, st2⟩, h2, h3⟩ := h
    injection h3 with h3
    injection h3 with _ h3
    subst h3
    exact (hd d (by simp) _ _ _ _ _ h1).trans (ih (fun d h => hd d (by simp [h])) h2)

theorem tuple_tidy {ds : List Decoder} (hd : ∀ d ∈ ds, Tidy d) : Tidy (mkTupleD ds) := by
  have hw : ∀ d ∈ ds.map wrapDyn, Tidy d := by
    intro d h
    obtain ⟨e, he, rfl⟩ := List.mem_map.1 h
    exact wrapDyn_tidy (hd e he)
  intro fl s st v st' h
  simp only [mkTupleD, tupleDecode, tupleValidatePointers, bind_eq_ok] at h
  obtain ⟨st1, ⟨st2, h1, h2⟩, ⟨ws, st3⟩, h3, h4⟩ := h
  injection h4 with h4
  injection h4 with _ h4
  subst h4
  rw [seekBack (tupleCheckLoop_after hw h1) h2] at h3
  exact decodeEach_after hw h3

theorem arrayCheckLoop_after {cur en k : Nat} {st st' : Stream}
    (h : arrayCheckLoop cur en k st = .ok st') : After st st' := by
  induction k generalizing st with
  | zero => injection h with h; subst h; exact .refl _
  | succ k ih =>
    simp only [arrayCheckLoop, bind_eq_ok] at h
    obtain ⟨⟨off, st1⟩, h1, h2⟩ := h
    split at h2
    · cases h2
    · exact (decodeUint256_after h1).trans (ih h2)

theorem arrayValidate_eq {item : Decoder} {k : Nat} {st st' : Stream}
    (h : arrayValidatePointers item k st = .ok st') : st' = st := by
  simp only [arrayValidatePointers] at h
  split at h
  · simp only [bind_eq_ok] at h
    obtain ⟨st1, h1, h2⟩ := h
    exact seekBack (arrayCheckLoop_after h1) h2
  · injection h with h; exact h.symm

theorem decodeN_after {fl : Flags} {item : Decoder} (hd : Tidy item) {k : Nat} {st st' : Stream}
    {vs : List PyVal} (h : decodeN fl item k st = .ok (vs, st')) : After st st' := by
  induction k generalizing st vs with
  | zero => injection h with h; injection h with _ h; subst h; exact .refl _
  | succ k ih =>
    simp only [decodeN, bind_eq_ok] at h
    obtain ⟨⟨v, st1⟩, h1, ⟨ws, st2⟩, h2, h3⟩ := h
    injection h3 with h3
    injection h3 with _ h3
    subst h3
    exact (hd _ _ _ _ _ h1).trans (ih h2)

theorem sizedArrayDecode_after {fl : Flags} {item : Decoder} (hd : Tidy item) {k : Nat}
    {st st' : Stream} {v : PyVal} (h : sizedArrayDecode fl item k st = .ok (v, st')) :
    After st st' := by
  simp only [sizedArrayDecode, bind_eq_ok] at h
  obtain ⟨st1, h1, ⟨ws, st3⟩, h3, h4⟩ := h
  injection h4 with h4
  injection h4 with _ h4
  subst h4
  rw [arrayValidate_eq h1] at h3
  exact decodeN_after hd h3

theorem dynamicArrayDecode_after {fl : Flags} {item : Decoder} (hd : Tidy item)
    {st st' : Stream} {v : PyVal} (h : dynamicArrayDecode fl item st = .ok (v, st')) :
    After st st' := by
  simp only [dynamicArrayDecode, bind_eq_ok] at h
  obtain ⟨⟨k, st0⟩, h0, st1, h1, st2, h2, ⟨ws, st3⟩, h3, st4, h4, h5⟩ := h
  injection h5 with h5
  injection h5 with _ h5
  subst h5
  rw [arrayValidate_eq h2] at h3
  rw [frame_after h1 (decodeN_after hd h3) h4]
  exact decodeUint256_after h0

theorem wrapItem_tidy {item w : Decoder} (hd : Tidy item) (h : wrapItem item = .ok w) : Tidy w := by
  simp only [wrapItem] at h
  split at h
  · cases h
  · injection h with h
    subst h
    split
    · exact headTail_tidy hd
    · exact hd

theorem sizedArray_tidy {k : Nat} {item d : Decoder} (hd : Tidy item)
    (h : mkSizedArrayD k item = .ok d) : Tidy d := by
  simp only [mkSizedArrayD, bind_eq_ok] at h
  obtain ⟨w, h1, h2⟩ := h
  injection h2 with h2
  subst h2
  intro fl s st v st' h
  exact sizedArrayDecode_after (wrapItem_tidy hd h1) h

theorem dynamicArray_tidy {item d : Decoder} (hd : Tidy item)
    (h : mkDynamicArrayD item = .ok d) : Tidy d := by
  simp only [mkDynamicArrayD, bind_eq_ok] at h
  obtain ⟨w, h1, h2⟩ := h
  injection h2 with h2
  subst h2
  intro fl s st v st' h
  exact dynamicArrayDecode_after (wrapItem_tidy hd h1) h

theorem decsOf_mem {ts : List Ty} {d : Decoder} (h : d ∈ decsOf ts) : ∃ t ∈ ts, d = decOf t := by
  induction ts with
  | nil => simp [decsOf] at h
  | cons t ts ih =>
    simp only [decsOf, List.mem_cons] at h
    rcases h with h | h
    · exact ⟨t, by simp, h⟩
    · obtain ⟨u, hu, he⟩ := ih h
      exact ⟨u, by simp [hu], he⟩

/-- The decoders of all types are tidy. -/
theorem decOf_tidy (t : Ty) : Tidy (decOf t) := by
  refine Spec.Ty.ind (P := fun t => Tidy (decOf t)) ?_ ?_ ?_ ?_ ?_ ?_ ?_ ?_ ?_ ?_ ?_ ?_ t
  · intro n; exact fixed_tidy
  · intro n; exact fixed_tidy
  · exact fixed_tidy
  · exact fixed_tidy
  · intro m n; exact fixed_tidy
  · intro m n; exact fixed_tidy
  · intro m; exact fixed_tidy
  · exact byteString_tidy
  · exact stringWith_tidy
  · intro k t ih fl s st v st' h
    refine sizedArrayDecode_after (item := if t.dynamic then headTail (decOf t) else decOf t) ?_ h
    split
    · exact headTail_tidy ih
    · exact ih
  · intro t ih fl s st v st' h
    refine dynamicArrayDecode_after (item := if t.dynamic then headTail (decOf t) else decOf t) ?_ h
    split
    · exact headTail_tidy ih
    · exact ih
  · intro ts ih
    rw [decOf]
    refine tuple_tidy fun d hd => ?_
    obtain ⟨t, ht, rfl⟩ := decsOf_mem hd
    exact ih t ht

/-- Setting `strict` changes nothing of this. -/
theorem tidy_setStrict {d : Decoder} (h : Tidy d) (strict : Bool) : Tidy (d.setStrict strict) := by
  intro fl s st v st' hr
  refine h fl s st v st' ?_
  unfold Decoder.setStrict at hr
  repeat' split at hr
  all_goals exact hr

end EthAbi
