import Verif.Lemmas.Parts
import Verif.Props.Direct

/-!
# Property C61: coder objects put together by hand

`Part` is an expression such as `TupleEncoder(encoders=(UnsignedIntegerEncoder(...), ByteStringEncoder()))`;
`Part.encoder` is its value with the encoder classes, `Part.decoder` with the decoder classes.  `Form` says
what such a coder is for: the ABI type of its values, and the number of bytes of each elementary value.
-/
namespace EthAbi
open Spec

/-- **C61** (encoding).  An expression that has a form constructs an encoder.  It encodes each value of the
type, by the rule of the ABI with the chosen number of bytes for each elementary value, and what it encodes is
such a value. -/
theorem C61_encode [Ext] {p : Part} {s : Form} (h : Describes p s) : ∃ e, p.encoder = .ok e ∧
    (∀ v x, denote s.ty v = some x → (s.enc x).length < 2 ^ 256 →
      e.validateValue v = .ok () ∧ e.call v = .ok (s.enc x)) ∧
    (∀ v b, e.call v = .ok b → OnGrid s.ty v → ∃ x, denote s.ty v = some x ∧ b = s.enc x) ∧
    (∀ v er, e.validateValue v = .error er → Refused s.ty v er) ∧
    (∀ v x b, denote s.ty v = some x → e.call v = .ok b → s.ty.dynamic = false → b.length = s.width) := by
  obtain ⟨e, d, hp⟩ := partOk s p h
  refine ⟨e, hp.enc, fun v x hx hl => ⟨hp.good.base.valOk v x hx, hp.good.base.enc v x hx hl⟩,
    hp.good.spec, hp.good.base.valErr, ?_⟩
  intro v x b hx hb hs
  obtain ⟨y, h1, rfl⟩ := hp.good.spec v b hb (denote_onGrid _ _ _ hx)
  exact (hp.lengths y (denote_of _ _ _ h1)).2 hs

/-- **C61** (decoding).  It constructs a decoder with the decoder classes.  If in each tuple with a dynamic
component the heads have at least 32 bytes for each word that the decoder reckons, the decoder returns what the
encoder was given, in its canonical form, wherever the encoding is in the stream (with a dynamic part: where
the offsets of the stream begin), and skips a static value exactly. -/
theorem C61_round_trip [Ext] {p : Part} {s : Form} (h : Describes p s) (hr : s.Roomy) :
    ∃ e d, p.encoder = .ok e ∧ p.decoder = .ok d ∧
      ∀ v x b, denote s.ty v = some x → e.call v = .ok b →
        ∀ fl (st : Stream), st.data.length ≤ ssizeMax → b <+: st.data.drop st.pos →
          (s.ty.dynamic = true → st.total = st.pos) →
          ∃ q, d.call fl st = .ok (toPy s.ty x, { st with pos := q }) ∧
            (s.ty.dynamic = false → q = st.pos + b.length) := by
  obtain ⟨e, d, hp⟩ := partOk s p h
  refine ⟨e, d, hp.enc, hp.dec, ?_⟩
  intro v x b hx hb fl st hl hat ht
  have hd : d.dyn = s.ty.dynamic := by rw [Decoder.dyn, hp.attrs.isDyn]; rfl
  obtain ⟨q, h1, _, h3⟩ := (hp.back hr).back v _ b ⟨x, hx, rfl⟩ hb fl (d.isStrict fl) st hl hat (by rwa [hd])
  exact ⟨q, h1, fun h0 => h3 (by rw [hd]; exact h0)⟩

/-- **C61** (the bytes alone). -/
theorem C61_whole [Ext] {p : Part} {s : Form} (h : Describes p s) (hr : s.Roomy) :
    ∃ e d, p.encoder = .ok e ∧ p.decoder = .ok d ∧
      ∀ v x b, denote s.ty v = some x → e.call v = .ok b → b.length ≤ ssizeMax → ∀ fl,
        (d.call fl ⟨b, 0, [], 0⟩).map Prod.fst = .ok (toPy s.ty x) := by
  obtain ⟨e, d, h1, h2, h3⟩ := C61_round_trip h hr
  refine ⟨e, d, h1, h2, fun v x b hx hb hl fl => ?_⟩
  obtain ⟨q, h4, _⟩ := h3 v x b hx hb fl ⟨b, 0, [], 0⟩ hl (List.prefix_refl b) (fun _ => rfl)
  rw [h4]
  rfl

/-- **C61** (too little room).  A tuple with a dynamic component whose heads have less than 32 bytes for each
reckoned word is encoded, but its decoder refuses every encoding with `InvalidPointer`. -/
theorem C61_short [Ext] {ps : List Part} {ss : List Form} (h : Describes (.tuple ps) (.tuple ss))
    (hr : Form.AllRoomy ss) (hdyn : Ty.anyDynamic (Form.tys ss) = true)
    (hs : (ss.map Form.headWidth).sum < 32 * (ss.map Form.reckoned).sum) :
    ∃ e d, (Part.tuple ps).encoder = .ok e ∧ (Part.tuple ps).decoder = .ok d ∧
      ∀ v x b, denote (Form.tuple ss).ty v = some x → e.call v = .ok b →
        ∀ fl (st : Stream), st.data.length ≤ ssizeMax → b <+: st.data.drop st.pos →
          d.call fl st = .error .invalidPointer := by
  simp only [Describes] at h
  obtain ⟨es, ds, hp⟩ := partsOk (fun s _ => partOk s) h.2
  have hok := partOk_tuple hp (describes_ne h.2 h.1)
  refine ⟨_, _, hok.enc, hok.dec, ?_⟩
  intro v x b hx hb fl st hl hat
  obtain ⟨vs, xs, hv, h2, rfl⟩ := denote_tuple.1 hx
  have hR := partRel_each h2
  obtain ⟨us, bs, h4, h5, h3, rfl⟩ := tupleEncode_inv hb
  have : us = vs := by rw [hv] at h4; injection h4 with h4; exact h4.symm
  subst this
  have hlen := callAll_length h3 h5
  have hw := part_heads hp.good hp.lengths hR h3
  have hB := pairs_backs (hp.back hr) hR h3
  refine tupleDecode_short hB ?_ ?_ fl st hl hat
  · rw [elems_any hlen, parts_dyn hp.good]
    exact hdyn
  · rw [hw, reckoned_sum hp.attrs]
    exact hs

/-- **C61** (construction).  Without components, or without an element coder, no object is made, and no
encoder of an array without its length; such a decoder is made, and raises `TypeError` whenever it is
called. -/
theorem C61_refused [Ext] :
    (Part.tupleNone.encoder.map fun _ => ()) = .error .valueError ∧
    (Part.tupleNone.decoder.map fun _ => ()) = .error .valueError ∧
    (∀ n, ((Part.sizedArray n .none).encoder.map fun _ => ()) = .error .valueError ∧
      ((Part.sizedArray n .none).decoder.map fun _ => ()) = .error .valueError) ∧
    ((Part.dynamicArray .none).encoder.map fun _ => ()) = .error .valueError ∧
    ((Part.dynamicArray .none).decoder.map fun _ => ()) = .error .valueError ∧
    (∀ item s, Describes item s →
      ((Part.sizedArray none item).encoder.map fun _ => ()) = .error .valueError ∧
      ∃ d, (Part.sizedArray none item).decoder = .ok d ∧ ∀ fl st, d.call fl st = .error .typeError) := by
  refine ⟨rfl, rfl, fun n => ⟨rfl, rfl⟩, rfl, rfl, fun item s h => ?_⟩
  obtain ⟨e, d, hp⟩ := partOk s item h
  constructor
  · rw [Part.encoder, hp.enc, hp.some]
    rfl
  · rw [Part.decoder, hp.dec, hp.some]
    simp only [ok_bind, Bool.false_eq_true, if_false, unsizedDecoder, wrapItem, hp.attrs.isDyn]
    exact ⟨_, rfl, fun _ _ => rfl⟩

/-! ## The hypotheses are met -/

/-- `uint8` in one byte. -/
def Ex.byte : Part := .fixed .uint [(.valueBitSize, some 8), (.dataByteSize, some 1)]

theorem Ex.sized_byte : Sized .uint [(.valueBitSize, some 8), (.dataByteSize, some 1)] 8 1 0 where
  distinct := by unfold DistinctKeys; decide
  known := by decide
  asks := ⟨rfl, rfl, by simp, 1, rfl, rfl⟩
  sizes := ⟨by decide, by decide, by decide⟩
  bits := by simp [BitsOk]

/-- `uint8` in 63 bytes. -/
def Ex.wide : Part := .fixed .uint [(.valueBitSize, some 8), (.dataByteSize, some 63)]

theorem Ex.sized_wide : Sized .uint [(.valueBitSize, some 8), (.dataByteSize, some 63)] 8 63 0 where
  distinct := by unfold DistinctKeys; decide
  known := by decide
  asks := ⟨rfl, rfl, by simp, 1, rfl, rfl⟩
  sizes := ⟨by decide, by decide, by decide⟩
  bits := by simp [BitsOk]

/-- A tuple of a byte and an array of three bytes: 4 bytes in all, and no dynamic component. -/
def Ex.four : Part := .tuple [Ex.byte, .sizedArray (some 3) Ex.byte]
def Ex.fourForm : Form := .tuple [.leaf .uint 8 1 0, .sized 3 (.leaf .uint 8 1 0)]

theorem Ex.four_describes : Describes Ex.four Ex.fourForm := by
  simp only [Ex.four, Ex.fourForm, Ex.byte, Describes, DescribesAll]
  exact ⟨by simp, ⟨trivial, Ex.sized_byte⟩, ⟨trivial, by decide, trivial, Ex.sized_byte⟩, trivial⟩

theorem Ex.four_roomy : Ex.fourForm.Roomy := by
  simp only [Ex.fourForm, Form.Roomy, Form.AllRoomy, and_true, true_and]
  intro h
  revert h
  decide

example : letI := Ex.ext
    (Ex.four.encoder >>= fun e => e.call (.tuple [.int 9, .list [.int 1, .int 2, .int 3]])) = .ok [9, 1, 2, 3] ∧
    (Ex.four.decoder >>= fun d => (d.call (fun _ => true) ⟨[0, 9, 1, 2, 3, 0], 1, [], 0⟩).map
      fun r => (r.1, r.2.pos)) = .ok (.tuple [.int 9, .tuple [.int 1, .int 2, .int 3]], 5) := by
  decide +kernel

/-- A dynamic array of bytes beside a wide and a narrow number: 32 + 63 + 1 bytes of head are enough for the
three words reckoned. -/
def Ex.mixed : Part := .tuple [.dynamicArray Ex.byte, Ex.wide, Ex.byte]
def Ex.mixedForm : Form := .tuple [.dyn (.leaf .uint 8 1 0), .leaf .uint 8 63 0, .leaf .uint 8 1 0]

theorem Ex.mixed_describes : Describes Ex.mixed Ex.mixedForm := by
  simp only [Ex.mixed, Ex.mixedForm, Ex.byte, Ex.wide, Describes, DescribesAll]
  exact ⟨by simp, ⟨trivial, Ex.sized_byte⟩, ⟨trivial, Ex.sized_wide⟩, ⟨trivial, Ex.sized_byte⟩, trivial⟩

theorem Ex.mixed_roomy : Ex.mixedForm.Roomy := by
  simp only [Ex.mixedForm, Form.Roomy, Form.AllRoomy, and_true, true_and]
  intro _
  decide

example : letI := Ex.ext
    (Ex.mixed.encoder >>= fun e => e.call (.tuple [.list [.int 7, .int 8], .int 5, .int 6])) =
      .ok (wordOf 96 ++ (List.replicate 62 0 ++ [5]) ++ [6] ++ (wordOf 2 ++ [7, 8])) ∧
    (Ex.mixed.decoder >>= fun d => (d.call (fun _ => true)
      ⟨wordOf 96 ++ (List.replicate 62 0 ++ [5]) ++ [6] ++ (wordOf 2 ++ [7, 8]), 0, [], 0⟩).map Prod.fst) =
      .ok (.tuple [.tuple [.int 7, .int 8], .int 5, .int 6]) := by
  decide +kernel

/-- A byte beside a byte string: 33 bytes of head, and two words reckoned. -/
def Ex.short : Part := .tuple [Ex.byte, .byteString]
def Ex.shortForms : List Form := [.leaf .uint 8 1 0, .bytes]

theorem Ex.short_describes : Describes Ex.short (.tuple Ex.shortForms) := by
  simp only [Ex.short, Ex.shortForms, Ex.byte, Describes, DescribesAll]
  exact ⟨by simp, ⟨trivial, Ex.sized_byte⟩, trivial, trivial⟩

example : Form.AllRoomy Ex.shortForms ∧ Ty.anyDynamic (Form.tys Ex.shortForms) = true ∧
    (Ex.shortForms.map Form.headWidth).sum < 32 * (Ex.shortForms.map Form.reckoned).sum := by
  simp only [Ex.shortForms, Form.AllRoomy, Form.Roomy, and_true, true_and]
  decide

example : letI := Ex.ext
    (Ex.short.encoder >>= fun e => e.call (.tuple [.int 9, .bytes [1]])) =
      .ok ([9] ++ wordOf 33 ++ (wordOf 1 ++ (1 :: List.replicate 31 0))) ∧
    (Ex.short.decoder >>= fun d => (d.call (fun _ => true)
      ⟨[9] ++ wordOf 33 ++ (wordOf 1 ++ (1 :: List.replicate 31 0)), 0, [], 0⟩).map Prod.fst) =
      .error .invalidPointer := by
  decide +kernel

/-- An array of no byte strings in a tuple: it is encoded into its offset alone, which the decoder refuses for
pointing to the end of the data.  (Arrays of fixed length 0 have no form.) -/
theorem C61_zero : letI := Ex.ext
    ((Part.tuple [.sizedArray (some 0) .byteString]).encoder >>= fun e => e.call (.tuple [.list []])) =
      .ok (wordOf 32) ∧
    ((Part.tuple [.sizedArray (some 0) .byteString]).decoder >>= fun d =>
      (d.call (fun _ => true) ⟨wordOf 32, 0, [], 0⟩).map Prod.fst) = .error .invalidPointer := by
  decide +kernel

end EthAbi
