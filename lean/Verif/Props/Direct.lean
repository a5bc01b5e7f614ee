import Verif.Lemmas.DirectEnc
import Verif.Props.Examples

/-!
# Property C55: coder objects constructed with sizes of one's own

`Cls.encoder c kwargs` is what constructing an encoder of the class with these keyword arguments gives,
`Cls.decoder c kwargs` the same for the decoder class; `Encoder.call` and `Decoder.call` call the objects.
-/
namespace EthAbi
open Spec

/-- **C55** (construction).  A keyword that the class does not have raises `AttributeError`.  Otherwise the
object is made exactly if a value size and a data size are given or have a default, the first is a whole
number of bytes and not more than the second, and a fixed-point class is given 1 to 80 decimal places; `is_big_endian=None` is
refused, and an address encoder is made for 160 bits only.  Anything else raises `ValueError`. -/
theorem C55_construct [Ext] (c : Cls) (kwargs : List (Key × Option Nat)) (hn : DistinctKeys kwargs) :
    ((∃ p ∈ kwargs, takes c p.1 = false) →
      c.encoder kwargs = .error .attributeError ∧ c.decoder kwargs = .error .attributeError) ∧
    ((∀ p ∈ kwargs, takes c p.1 = true) →
      (∀ v d f big, Asks c kwargs v d f big → SizesOk c v d f →
        (∃ dec, c.decoder kwargs = .ok dec) ∧
        ((c = .address → v = 160) → ∃ e, c.encoder kwargs = .ok e)) ∧
      ((¬ ∃ v d f big, Asks c kwargs v d f big ∧ SizesOk c v d f) → c.decoder kwargs = .error .valueError) ∧
      ((¬ ∃ v d f big, Asks c kwargs v d f big ∧ SizesOk c v d f ∧ (c = .address → v = 160)) →
        c.encoder kwargs = .error .valueError)) := by
  refine ⟨fun h => ?_, fun h => ⟨fun v d f big hA hS => ⟨⟨_, decoder_ok hn h hA hS⟩,
    fun h160 => ⟨_, encoder_ok hn h hA hS h160⟩⟩, decoder_error hn h, encoder_error hn h⟩⟩
  unfold Cls.encoder Cls.decoder
  rw [initKwargs_unknown _ h]
  exact ⟨rfl, rfl⟩

theorem Spec.Sized.encoder [Ext] {c : Cls} {kwargs : List (Key × Option Nat)} {v d f : Nat}
    (h : Sized c kwargs v d f) : c.encoder kwargs = .ok (directEnc c v d f) :=
  (encoder_ok h.distinct h.known h.asks h.sizes (by rintro rfl; exact h.bits)).trans
    (by rw [directEncB_usual h.sizes.1])

theorem Spec.Sized.decoder {c : Cls} {kwargs : List (Key × Option Nat)} {v d f : Nat}
    (h : Sized c kwargs v d f) : c.decoder kwargs = .ok (directDec c v d f) :=
  decoder_ok h.distinct h.known h.asks h.sizes

/-- **C55** (encoding).  The object encodes exactly the values of the type it is for, each into the `d` bytes
asked for, and refuses any other with an `EncodingError`, or with a `ValueError` if Python does not print the
value or the bounds of the type. -/
theorem C55_encode [Ext] {c : Cls} {kwargs : List (Key × Option Nat)} {v d f : Nat}
    (h : Sized c kwargs v d f) :
    ∃ e, c.encoder kwargs = .ok e ∧
      (∀ value y, denote (clsType c v f) value = some y →
        e.call value = .ok (encIn d (clsType c v f) y) ∧ (encIn d (clsType c v f) y).length = d) ∧
      (∀ value, OnGrid (clsType c v f) value → denote (clsType c v f) value = none →
        ∃ er, e.call value = .error er ∧ Refused (clsType c v f) value er) := by
  have hg := direct_good (f := f) h.sizes h.bits
  refine ⟨_, h.encoder, fun value y hy => ⟨hg.enc value y hy, ?_⟩, fun value ho hy => ?_⟩
  · exact encIn_length h.sizes h.bits (denote_of _ _ _ hy)
  · cases hc : (directEnc c v d f).call value with
    | ok b =>
      obtain ⟨y, hy'⟩ := hg.complete value (hg.callVal value b hc) ho
      rw [hy] at hy'; cases hy'
    | error er => exact ⟨er, rfl, direct_call_error h.sizes h.bits hc⟩

/-- **C55** (decoding).  The object returns a value exactly if the next `d` bytes of the stream are the
encoding of one, moves the stream by `d` bytes and changes nothing else. -/
theorem C55_decode {c : Cls} {kwargs : List (Key × Option Nat)} {v d f : Nat} (h : Sized c kwargs v d f) :
    ∃ dec, c.decoder kwargs = .ok dec ∧
      ∀ fl st value st', st.data.length ≤ ssizeMax →
        (dec.call fl st = .ok (value, st') ↔
          ∃ y, Val.Of (clsType c v f) y ∧ encIn d (clsType c v f) y <+: st.data.drop st.pos ∧
            value = toPy (clsType c v f) y ∧ st' = { st with pos := st.pos + d }) :=
  ⟨_, h.decoder, fun _ _ _ _ hd => direct_decodes h.sizes h.bits hd⟩

/-- **C55** (round trips).  With the same keywords, the decoder returns what the encoder was given, in its
canonical form, and what it returns is encoded into the bytes it read. -/
theorem C55_round_trip [Ext] {c : Cls} {kwargs : List (Key × Option Nat)} {v d f : Nat}
    (h : Sized c kwargs v d f) :
    ∃ e dec, c.encoder kwargs = .ok e ∧ c.decoder kwargs = .ok dec ∧
      (∀ value y, denote (clsType c v f) value = some y → ∀ b, e.call value = .ok b →
        ∀ fl st, st.data.length ≤ ssizeMax → b <+: st.data.drop st.pos →
          dec.call fl st = .ok (toPy (clsType c v f) y, { st with pos := st.pos + d })) ∧
      (∀ fl st value st', st.data.length ≤ ssizeMax → dec.call fl st = .ok (value, st') →
        e.call value = .ok ((st.data.drop st.pos).take d)) := by
  have hg := direct_good (f := f) h.sizes h.bits
  refine ⟨_, _, h.encoder, h.decoder, ?_, ?_⟩
  · intro value y hy b hb fl st hd hp
    rw [hg.enc value y hy] at hb
    injection hb with hb
    exact (direct_decodes h.sizes h.bits hd).2 ⟨y, denote_of _ _ _ hy, hb ▸ hp, rfl, rfl⟩
  · intro fl st value st' hd hc
    obtain ⟨y, hy, hp, rfl, rfl⟩ := (direct_decodes h.sizes h.bits hd).1 hc
    have hl := encIn_length h.sizes h.bits hy
    have ht := List.prefix_iff_eq_take.1 hp
    rw [hl] at ht
    rw [hg.enc _ y (denote_toPy _ y hy), ← ht]

/-! ## What the sizes meant for a class are needed for -/

/-- `BooleanEncoder(value_bit_size=16)` and the decoder with the same arguments are made, the encoder encodes
`True`, and the decoder refuses every input: it compares the two bytes of the value with one. -/
theorem C55_bool_16 [Ext] : ∃ e dec, Cls.bool.encoder [(.valueBitSize, some 16)] = .ok e ∧
    Cls.bool.decoder [(.valueBitSize, some 16)] = .ok dec ∧
    e.call (.bool true) = .ok (List.replicate 31 0 ++ [1]) ∧
    ∀ fl st value st', dec.call fl st ≠ .ok (value, st') := by
  refine ⟨_, _, rfl, rfl, rfl, ?_⟩
  intro fl st value st' h
  change decodeFixed 16 32 true boolDecoderFn neverNeg st = _ at h
  unfold decodeFixed at h
  obtain ⟨⟨raw, st1⟩, h1, h⟩ := bind_eq_ok.1 h
  have hr : raw.length = 32 := by
    unfold readFixed at h1
    obtain ⟨⟨b, st2⟩, _, h1⟩ := bind_eq_ok.1 h1
    simp only at h1
    split at h1
    · cases h1
    · next hne =>
      injection h1 with h1
      injection h1 with h1 _
      subst h1
      simpa using hne
  simp only [splitDataAndPadding, if_true] at h
  obtain ⟨y, h2, _⟩ := bind_eq_ok.1 h
  have hl : (raw.drop (32 - 16 / 8)).length = 2 := by simp [hr]
  unfold boolDecoderFn at h2
  split at h2
  · next e => rw [e] at hl; simp at hl
  · split at h2
    · next e => rw [e] at hl; simp at hl
    · cases h2

/-- `AddressDecoder` can be made for other sizes than 160 bits, where `AddressEncoder` refuses; such a decoder
refuses every input. -/
theorem C55_address_152 [Ext] : Cls.address.encoder [(.valueBitSize, some 152)] = .error .valueError ∧
    ∃ dec, Cls.address.decoder [(.valueBitSize, some 152)] = .ok dec ∧
    ∀ fl st value st', dec.call fl st ≠ .ok (value, st') := by
  refine ⟨rfl, _, rfl, ?_⟩
  intro fl st value st' h
  change decodeFixed 152 32 true addressDecoderFn neverNeg st = _ at h
  unfold decodeFixed at h
  obtain ⟨⟨raw, st1⟩, h1, h⟩ := bind_eq_ok.1 h
  have hr : raw.length = 32 := by
    unfold readFixed at h1
    obtain ⟨⟨b, st2⟩, _, h1⟩ := bind_eq_ok.1 h1
    simp only at h1
    split at h1
    · cases h1
    · next hne =>
      injection h1 with h1
      injection h1 with h1 _
      subst h1
      simpa using hne
  simp only [splitDataAndPadding, if_true] at h
  obtain ⟨y, h2, _⟩ := bind_eq_ok.1 h
  have hl : (raw.drop (32 - 152 / 8)).length = 19 := by simp [hr]
  unfold addressDecoderFn at h2
  obtain ⟨s, h3, _⟩ := bind_eq_ok.1 h2
  unfold toNormalizedAddress at h3
  rw [if_neg (by omega)] at h3
  cases h3

/-! ## The hypotheses are met -/

/-- `UnsignedIntegerEncoder(value_bit_size=24, data_byte_size=5)` and the decoder. -/
theorem Ex.sized_uint24 : Sized .uint [(.valueBitSize, some 24), (.dataByteSize, some 5)] 24 5 0 where
  distinct := by unfold DistinctKeys; decide
  known := by decide
  asks := ⟨rfl, rfl, by simp, 1, rfl, rfl⟩
  sizes := ⟨by decide, by decide, by decide⟩
  bits := by simp [BitsOk]

example : letI := Ex.ext
    (Cls.uint.encoder [(.valueBitSize, some 24), (.dataByteSize, some 5)] >>= fun e => e.call (.int 0x010203)) =
      .ok [0, 0, 1, 2, 3] := by decide +kernel

example : ((Cls.uint.decoder [(.valueBitSize, some 24), (.dataByteSize, some 5)] >>= fun dec =>
      dec.call (fun _ => true) ⟨[9, 0, 0, 1, 2, 3, 9], 1, [], 0⟩).map fun r => (r.1, r.2.pos)) =
    .ok (.int 0x010203, 6) := by decide +kernel

/-- A signed fixed-point number of 16 bits and 2 places in 3 bytes. -/
theorem Ex.sized_fixed16 : Sized .fixed
    [(.fracPlaces, some 2), (.valueBitSize, some 16), (.dataByteSize, some 3)] 16 3 2 where
  distinct := by unfold DistinctKeys; decide
  known := by decide
  asks := ⟨rfl, rfl, by simp; rfl, 1, rfl, rfl⟩
  sizes := ⟨by decide, by decide, by decide⟩
  bits := by simp [BitsOk]

/-- `-1.5` is `-150` hundredths, `ff 6a` in two bytes, and `ff ff 6a` in three. -/
example : letI := Ex.ext
    (Cls.fixed.encoder [(.fracPlaces, some 2), (.valueBitSize, some 16), (.dataByteSize, some 3)] >>=
      fun e => e.call (.dec (.fin (-15) (-1)))) = .ok [0xff, 0xff, 0x6a] := by decide +kernel

/-- Foreign keywords, missing sizes, sizes that do not fit. -/
example : letI := Ex.ext
    (Cls.uint.encoder [(.valueBitSize, some 8), (.unknown ['x'], some 1)]).map (fun _ => ()) = .error .attributeError ∧
    (Cls.uint.encoder [(.valueBitSize, some 8), (.fracPlaces, some 1)]).map (fun _ => ()) = .error .attributeError ∧
    (Cls.uint.encoder []).map (fun _ => ()) = .error .valueError ∧
    (Cls.uint.encoder [(.valueBitSize, some 12)]).map (fun _ => ()) = .error .valueError ∧
    (Cls.bytesM.encoder [(.valueBitSize, some 24), (.dataByteSize, some 2)]).map (fun _ => ()) = .error .valueError := by
  decide +kernel

end EthAbi
