import Verif.Lemmas.Turned
import Verif.Props.Examples

/-!
# Property C59: coder objects with the other `is_big_endian`

`is_big_endian` is a keyword argument of the fixed-size classes.  `Turned` asks for the value that is not the
default of the class: `is_big_endian=True` for `bytesM`, `is_big_endian=False` for all others.
-/
namespace EthAbi
open Spec

theorem Spec.Turned.encoder [Ext] {c : Cls} {kwargs : List (Key × Option Nat)} {v d f : Nat}
    (h : Turned c kwargs v d f) : c.encoder kwargs = .ok (directEncB c v d f (!usualOrder c)) :=
  encoder_ok h.distinct h.known h.asks h.sizes (by rintro rfl; exact h.bits)

theorem Spec.Turned.decoder {c : Cls} {kwargs : List (Key × Option Nat)} {v d f : Nat}
    (h : Turned c kwargs v d f) : c.decoder kwargs = .ok (directDecB c v d f (!usualOrder c)) :=
  decoder_ok h.distinct h.known h.asks h.sizes

/-- **C59** (decoding).  The object returns a value exactly if the next `d` bytes are the usual encoding of it
with the padding moved to the other side; it moves the stream by `d` bytes and changes nothing else. -/
theorem C59_decode {c : Cls} {kwargs : List (Key × Option Nat)} {v d f : Nat} (h : Turned c kwargs v d f) :
    ∃ dec, c.decoder kwargs = .ok dec ∧
      ∀ fl st value st', st.data.length ≤ ssizeMax →
        (dec.call fl st = .ok (value, st') ↔
          ∃ y, Val.Of (clsType c v f) y ∧ turnedIn c v d f y <+: st.data.drop st.pos ∧
            value = toPy (clsType c v f) y ∧ st' = { st with pos := st.pos + d }) :=
  ⟨_, h.decoder, fun _ _ _ _ hd => turned_decodes h.sizes h.bits hd⟩

/-- **C59** (encoding).  The object encodes exactly the values of its type, into the `d` bytes of
`writtenIn`: booleans and addresses with the padding on the other side, unsigned numbers in as few bytes as
they need before zeros, signed numbers as if the argument had not been given, and bytes after zeros.  It
refuses any other value with an `EncodingError`, or with a `ValueError` if Python does not print the value or
the bounds of the type. -/
theorem C59_encode [Ext] {c : Cls} {kwargs : List (Key × Option Nat)} {v d f : Nat}
    (h : Turned c kwargs v d f) :
    ∃ e, c.encoder kwargs = .ok e ∧
      (∀ value y, denote (clsType c v f) value = some y →
        e.call value = .ok (writtenIn c v d f value y) ∧ (writtenIn c v d f value y).length = d) ∧
      (∀ value, OnGrid (clsType c v f) value → denote (clsType c v f) value = none →
        ∃ er, e.call value = .error er ∧ Refused (clsType c v f) value er) := by
  have hg := direct_good (f := f) h.sizes h.bits
  refine ⟨_, h.encoder, fun value y hy => ⟨turned_writes h.sizes h.bits hy,
    writtenIn_length h.sizes h.bits hy⟩, fun value ho hy => ?_⟩
  cases hc : (directEnc c v d f).call value with
  | ok b =>
    obtain ⟨y, hy'⟩ := hg.complete value (hg.callVal value b hc) ho
    rw [hy] at hy'; cases hy'
  | error er => exact ⟨er, turned_error h.sizes.1 hc, direct_call_error h.sizes h.bits hc⟩

/-- **C59** (round trips).  With the same keywords, the decoder returns what the encoder was given exactly for
the values of `ComesBack`: all booleans and addresses, an unsigned number if it is zero or needs all the bytes
of its size, a signed number if it is `0` or `-1` or there is no padding, and bytes if they have the full
length or are all zero. -/
theorem C59_round_trip [Ext] {c : Cls} {kwargs : List (Key × Option Nat)} {v d f : Nat}
    (h : Turned c kwargs v d f) :
    ∃ e dec, c.encoder kwargs = .ok e ∧ c.decoder kwargs = .ok dec ∧
      ∀ value y, denote (clsType c v f) value = some y → ∃ b, e.call value = .ok b ∧
        ∀ fl st, st.data.length ≤ ssizeMax → b <+: st.data.drop st.pos →
          (dec.call fl st = .ok (toPy (clsType c v f) y, { st with pos := st.pos + d }) ↔
            ComesBack c v d value y) := by
  refine ⟨_, _, h.encoder, h.decoder, fun value y hy => ⟨_, turned_writes h.sizes h.bits hy,
    fun fl st hd hp => ?_⟩⟩
  rw [← comesBack_iff h.sizes h.bits hy]
  have hof := denote_of _ _ _ hy
  have hl := writtenIn_length h.sizes h.bits hy
  refine (turned_decodes h.sizes h.bits hd).trans ⟨?_, fun he => ⟨y, hof, he ▸ hp, rfl, rfl⟩⟩
  rintro ⟨y', hy', hp', hx, _⟩
  have e1 := denote_toPy _ y hof
  rw [hx, denote_toPy _ y' hy'] at e1
  injection e1 with e1
  subst e1
  have hl' : (turnedIn c v d f y').length = d := by
    rw [turnedIn, lastFirst_length, encIn_length h.sizes h.bits hy']
  exact (List.prefix_of_prefix_length_le hp' hp (by omega)).eq_of_length (by omega)

/-- **C59** (two values, one encoding).  With `is_big_endian=False` an encoder of unsigned numbers of at least
two bytes encodes `1` and `256` alike, so that no decoder can tell which it was given. -/
theorem C59_uint_not_injective [Ext] {kwargs : List (Key × Option Nat)} {v d f : Nat}
    (h : Turned .uint kwargs v d f) (h16 : 16 ≤ v) :
    ∃ e, Cls.uint.encoder kwargs = .ok e ∧ e.call (.int 1) = e.call (.int 256) ∧
      ∃ b, e.call (.int 1) = .ok b := by
  have hpow : (2 : Int) ^ 16 ≤ 2 ^ v := pow_le_pow_right₀ (by norm_num) h16
  have h1 : denote (clsType .uint v f) (.int 1) = some (.num 1) := by
    simp only [clsType, denote]; rw [if_pos ⟨by norm_num, by omega⟩]
  have h2 : denote (clsType .uint v f) (.int 256) = some (.num 256) := by
    simp only [clsType, denote]; rw [if_pos ⟨by norm_num, by omega⟩]
  have hvd := h.sizes.2.1
  obtain ⟨d, rfl⟩ : ∃ n, d = n + 2 := ⟨d - 2, by omega⟩
  have e1 : bytesOf 1 = 1 := by simp [bytesOf]
  have e2 : bytesOf 256 = 2 := by
    have : Nat.log 256 256 = 1 := Nat.log_eq_of_pow_le_of_lt_pow (by norm_num) (by norm_num)
    simp [bytesOf, this]
  refine ⟨_, h.encoder, ?_, _, turned_writes h.sizes h.bits h1⟩
  rw [turned_writes h.sizes h.bits h1, turned_writes h.sizes h.bits h2]
  simp only [writtenIn, e1, e2]
  rw [show d + 2 - 1 = d + 1 by omega, show d + 2 - 2 = d by omega, List.replicate_succ]
  rfl

/-! ## The hypotheses are met, and all cases occur -/

/-- `UnsignedIntegerEncoder(value_bit_size=24, data_byte_size=5, is_big_endian=False)` and the decoder. -/
theorem Ex.turned_uint24 :
    Turned .uint [(.valueBitSize, some 24), (.dataByteSize, some 5), (.isBigEndian, some 0)] 24 5 0 where
  distinct := by unfold DistinctKeys; decide
  known := by decide
  asks := ⟨rfl, rfl, by simp, 0, rfl, rfl⟩
  sizes := ⟨by decide, by decide, by decide⟩
  bits := by simp [BitsOk]

/-- `0x010203` comes back, `0x0102` is read as `0x010200`. -/
example : letI := Ex.ext
    let kw : List (Key × Option Nat) := [(.valueBitSize, some 24), (.dataByteSize, some 5), (.isBigEndian, some 0)]
    (Cls.uint.encoder kw >>= fun e => e.call (.int 0x010203)) = .ok [1, 2, 3, 0, 0] ∧
    (Cls.uint.encoder kw >>= fun e => e.call (.int 0x0102)) = .ok [1, 2, 0, 0, 0] ∧
    ((Cls.uint.decoder kw >>= fun dec => dec.call (fun _ => true) ⟨[1, 2, 0, 0, 0], 0, [], 0⟩).map Prod.fst) =
      .ok (.int 0x010200) := by decide +kernel

/-- `SignedIntegerEncoder(value_bit_size=8, data_byte_size=2, is_big_endian=False)`. -/
theorem Ex.turned_int8 :
    Turned .int [(.isBigEndian, some 0), (.valueBitSize, some 8), (.dataByteSize, some 2)] 8 2 0 where
  distinct := by unfold DistinctKeys; decide
  known := by decide
  asks := ⟨rfl, rfl, by simp, 0, rfl, rfl⟩
  sizes := ⟨by decide, by decide, by decide⟩
  bits := by simp [BitsOk]

/-- The encoder writes `5` as usual, and the decoder refuses what it wrote. -/
example : letI := Ex.ext
    let kw : List (Key × Option Nat) := [(.isBigEndian, some 0), (.valueBitSize, some 8), (.dataByteSize, some 2)]
    (Cls.int.encoder kw >>= fun e => e.call (.int 5)) = .ok [0, 5] ∧
    ((Cls.int.decoder kw >>= fun dec => dec.call (fun _ => true) ⟨[0, 5], 0, [], 0⟩).map Prod.fst) =
      .error .nonEmptyPaddingBytes ∧
    ((Cls.int.decoder kw >>= fun dec => dec.call (fun _ => true) ⟨[5, 0], 0, [], 0⟩).map Prod.fst) =
      .ok (.int 5) := by decide +kernel

/-- `BytesEncoder(value_bit_size=16, data_byte_size=3, is_big_endian=True)`. -/
theorem Ex.turned_bytes2 :
    Turned .bytesM [(.valueBitSize, some 16), (.dataByteSize, some 3), (.isBigEndian, some 1)] 16 3 0 where
  distinct := by unfold DistinctKeys; decide
  known := by decide
  asks := ⟨rfl, rfl, by simp, 1, rfl, rfl⟩
  sizes := ⟨by decide, by decide, by decide⟩
  bits := by simp [BitsOk]

/-- Two bytes come back, one byte is padded on the wrong side. -/
example : letI := Ex.ext
    let kw : List (Key × Option Nat) := [(.valueBitSize, some 16), (.dataByteSize, some 3), (.isBigEndian, some 1)]
    (Cls.bytesM.encoder kw >>= fun e => e.call (.bytes [7, 8])) = .ok [0, 7, 8] ∧
    (Cls.bytesM.encoder kw >>= fun e => e.call (.bytes [7])) = .ok [0, 0, 7] ∧
    ((Cls.bytesM.decoder kw >>= fun dec => dec.call (fun _ => true) ⟨[0, 0, 7], 0, [], 0⟩).map Prod.fst) =
      .ok (.bytes [0, 7]) := by decide +kernel

/-- `BooleanEncoder(is_big_endian=False)`. -/
theorem Ex.turned_bool : Turned .bool [(.isBigEndian, some 0)] 8 32 0 where
  distinct := by unfold DistinctKeys; decide
  known := by decide
  asks := ⟨rfl, rfl, by simp, 0, rfl, rfl⟩
  sizes := ⟨by decide, by decide, by decide⟩
  bits := by simp [BitsOk]

/-- `is_big_endian=None` is refused. -/
example : letI := Ex.ext
    (Cls.bool.encoder [(.isBigEndian, none)]).map (fun _ => ()) = .error .valueError ∧
    (Cls.bool.decoder [(.isBigEndian, none)]).map (fun _ => ()) = .error .valueError := by decide +kernel

end EthAbi
