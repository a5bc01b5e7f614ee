import Verif.Lemmas.Bounded
import Verif.Lemmas.Frames
import Verif.Props.Examples

/-!
# C13, C16, C18, C19, C38: decoding arbitrary data

In every statement `Fits d` says that `d` is not longer than a Python `bytes` object can be.
-/
namespace EthAbi
open Spec

/-! ## C13 -/

/-- **C13, part.**  If every type is `bytes`, is `string` or has neither in it, then data that are well
formed apart from the padding and the end of byte strings (`ReadsRelaxedAll`) are decoded with
`strict=False`.  Missing: `bytes` and `string` inside arrays and tuples, where the claim is false,
see `C13_relaxed_false`. -/
theorem C13_relaxed_partial [Ext] {types : List TypeStr} {ts : List Ty} (hT : Names types ts)
    (hb : ∀ t ∈ ts, t = .bytes ∨ t = .string ∨ ¬ (Occurs .bytes t ∨ Occurs .string t))
    {data : PyVal} {d : Bytes} (hd : IsBytes data d) (hl : Fits d) {xs : List Val}
    (h : ReadsRelaxedAll headBytes ts d 0 (headBytes ts) 0 xs) :
    decode types data false = .ok (.tuple (toPyAll ts xs)) := by
  refine (decode_reads hT hd hl).2 ⟨xs, ?_, rfl⟩
  have h1 : ReadsArgs headBytes false ts d xs :=
    (readsRelaxedAll_iff fun t ht => reads_relaxed_top (hb t ht) d).2 h
  have hv := supportedAll_valid hT
  refine readsArgs_minHead (fun us hus => codeHead_le ?_) h1
  by_cases hne : ts = []
  · subst hne
    intro u hu
    cases hus with
    | self => simp at hu
    | tuple hm _ => simp at hm
  · have : (Ty.tuple ts).Valid := ⟨hne, Ty.allValid_iff.2 hv⟩
    exact Ty.allValid_iff.1 (occurs_valid hus this).2

/-- Conversely, what `decode` returns with `strict=False` is stored in the data in this sense, for
all types. -/
theorem C13_relaxed_sound [Ext] {types : List TypeStr} {ts : List Ty} (hT : Names types ts)
    {data : PyVal} {d : Bytes} (hd : IsBytes data d) (hl : Fits d) {v : PyVal}
    (h : decode types data false = .ok v) :
    ∃ xs, v = .tuple (toPyAll ts xs) ∧
      ReadsRelaxedAll (fun us => 32 * us.length) ts d 0 (32 * ts.length) 0 xs := by
  obtain ⟨xs, h1, rfl⟩ := (decode_reads hT hd hl).1 h
  refine ⟨xs, rfl, ?_⟩
  have hv := supportedAll_valid hT
  have h2 : ReadsArgs (fun us => 32 * us.length) false ts d xs := by
    refine readsArgs_minHead (fun us hus => codeHead_words ?_) h1
    by_cases hne : ts = []
    · subst hne
      intro u hu
      cases hus with
      | self => simp at hu
      | tuple hm _ => simp at hm
    · have : (Ty.tuple ts).Valid := ⟨hne, Ty.allValid_iff.2 hv⟩
      exact Ty.allValid_iff.1 (occurs_valid hus this).2
  exact readsAll_imp_relaxed (fun t _ => reads_imp_relaxed t false d hl) h2

theorem names_bytesArray [Ext] : Names [t!"bytes[]"] [.dyn .bytes] :=
  .cons ⟨.dyn (s := t!"bytes") .bytes, by decide⟩ .nil

/-- `strict=False` does not reach the elements of a `bytes[]`: the padding of the element is checked
all the same. -/
theorem C13_relaxed_false [Ext] : ¬ ∀ (types : List TypeStr) (ts : List Ty), Names types ts →
    ∀ (d : Bytes) (xs : List Val), Fits d →
      ReadsRelaxedAll headBytes ts d 0 (headBytes ts) 0 xs →
      decode types (.bytes d) false = .ok (.tuple (toPyAll ts xs)) := by
  intro h
  let d : Bytes := be32 32 ++ be32 1 ++ be32 32 ++ be32 1 ++ [1, 1] ++ List.replicate 30 0
  have h1 := h _ _ names_bytesArray d [.seq [.raw [1]]] (by decide +kernel) (by
    refine ⟨⟨32, by decide +kernel, by decide +kernel, by decide +kernel, by decide +kernel, by decide +kernel, by decide +kernel, ?_⟩, trivial⟩
    exact ⟨⟨32, by decide +kernel, by decide +kernel, by decide +kernel, by decide +kernel, 1, by decide +kernel, by decide +kernel, by decide +kernel,
      by decide +kernel⟩, trivial⟩)
  have h2 := decode_eq names_bytesArray (data := .bytes d) (d := d) rfl (by decide +kernel) false
  rw [h1] at h2
  exact absurd h2.symm (by decide +kernel)

/-- Data for `["bytes", "uint8[]"]` that end in the middle of the byte string. -/
def relaxedData : Bytes := be32 96 ++ be32 64 ++ be32 0 ++ be32 5 ++ [1, 2, 3]

theorem names_bytes_uints [Ext] : Names [t!"bytes", t!"uint8[]"] [.bytes, .dyn (.uint 8)] :=
  .cons ⟨.bytes, by decide +kernel⟩
    (.cons ⟨.dyn (s := t!"uint8") (.uint (n := 8) (by decide +kernel)), by decide +kernel⟩ .nil)

example [Ext] : decode [t!"bytes", t!"uint8[]"] (.bytearray relaxedData) false =
    .ok (.tuple [.bytes [1, 2, 3], .tuple []]) :=
  C13_relaxed_partial names_bytes_uints (xs := [.raw [1, 2, 3], .seq []])
    (by
      intro t ht
      simp only [List.mem_cons, List.not_mem_nil, or_false] at ht
      rcases ht with rfl | rfl
      · exact .inl rfl
      · refine .inr (.inr ?_)
        rintro (h | h) <;> cases h with | dyn h => cases h)
    (.bytearray relaxedData) (by decide +kernel)
    ⟨⟨96, by decide +kernel, by decide +kernel, by decide +kernel, by decide +kernel, 5, by decide +kernel, by decide +kernel, by decide +kernel, by decide +kernel⟩,
     ⟨64, by decide +kernel, by decide +kernel, by decide +kernel, by decide +kernel, by decide +kernel, by decide +kernel, trivial⟩, trivial⟩

/-! ## C16 -/

/-- **C16, part.**  A failing `decode` on bytes and supported types raises a `DecodingError`, except
an `OverflowError`, if `bytes` or `string` occurs in a type and the data hold a length of more than
`2^63 - 32`, and a `UnicodeDecodeError`, if `string` occurs in a type and the data hold a length followed by that
many bytes, or as many as there are, which are not UTF-8.  Missing: these two, which do happen; see `C16_overflow_false` and `C16_unicode_false`. -/
theorem C16_errors_partial [Ext] {types : List TypeStr} {ts : List Ty} (hT : Names types ts)
    {data : PyVal} {d : Bytes} (hd : IsBytes data d) (hl : Fits d) {strict : Bool} {e : Exc}
    (h : decode types data strict = .error e) :
    e.isDecodingError = true ∨
    (e = .overflowError ∧ (∃ t ∈ ts, Occurs .bytes t ∨ Occurs .string t) ∧
      ∃ p n, At d p (be32 n) ∧ 2 ^ 63 - 32 < n) ∨
    (e = .unicodeDecodeError ∧ (∃ t ∈ ts, Occurs .string t) ∧
      ∃ p n, At d p (be32 n) ∧ ∀ s, utf8Encode? s ≠ some ((d.drop (p + 32)).take n)) := by
  rcases decode_cause hT hd hl h with rfl | rfl | rfl | ⟨rfl, h1, p, n, h2, h3, h4⟩ | ⟨rfl, h1, p, b, ⟨n, _, h2, _, rfl⟩, h3⟩
  · exact .inl rfl
  · exact .inl rfl
  · exact .inl rfl
  · refine .inr (.inl ⟨rfl, h1, p, n, h3, ?_⟩)
    simp only [ceil32, ssizeMax] at h4
    split at h4 <;> omega
  · exact .inr (.inr ⟨rfl, h1, p, n, h2, h3⟩)

/-- **C16, for types without `bytes` and `string`.** -/
theorem C16_errors_plain [Ext] {types : List TypeStr} {ts : List Ty} (hT : Names types ts)
    (hp : ∀ t ∈ ts, ¬ Occurs .bytes t ∧ ¬ Occurs .string t) {data : PyVal} {d : Bytes}
    (hd : IsBytes data d) (hl : Fits d) {strict : Bool} {e : Exc}
    (h : decode types data strict = .error e) : e.isDecodingError = true := by
  rcases C16_errors_partial hT hd hl h with h1 | ⟨_, ⟨t, ht, h1 | h1⟩, _⟩ | ⟨_, ⟨t, ht, h1⟩, _⟩
  · exact h1
  · exact absurd h1 (hp t ht).1
  · exact absurd h1 (hp t ht).2
  · exact absurd h1 (hp t ht).2

theorem names_bytes [Ext] : Names [t!"bytes"] [.bytes] := .cons ⟨.bytes, by decide +kernel⟩ .nil

theorem names_string [Ext] : Names [t!"string"] [.string] := .cons ⟨.string, by decide +kernel⟩ .nil

/-- A length word of `2^255` makes `decode` raise `OverflowError`. -/
theorem C16_overflow_false [Ext] : ¬ ∀ (types : List TypeStr) (ts : List Ty), Names types ts →
    ∀ (d : Bytes) (e : Exc), Fits d → decode types (.bytes d) = .error e →
      e.isDecodingError = true := by
  intro h
  let d : Bytes := be32 32 ++ be32 (2 ^ 255)
  have h1 := decode_eq names_bytes (data := .bytes d) (d := d) rfl (by decide +kernel) true
  have := h _ _ names_bytes d .overflowError (by decide +kernel) (h1.trans (by decide +kernel))
  cases this

/-- A `string` that is not UTF-8 makes `decode` raise `UnicodeDecodeError`. -/
theorem C16_unicode_false [Ext] : ¬ ∀ (types : List TypeStr) (ts : List Ty), Names types ts →
    ∀ (d : Bytes) (e : Exc), Fits d → decode types (.bytes d) = .error e →
      e.isDecodingError = true := by
  intro h
  let d : Bytes := be32 32 ++ be32 1 ++ [0xff] ++ List.replicate 31 0
  have h1 := decode_eq names_string (data := .bytes d) (d := d) rfl (by decide +kernel) true
  have := h _ _ names_string d .unicodeDecodeError (by decide +kernel) (h1.trans (by decide +kernel))
  cases this

example : Exc.isDecodingError .nonEmptyPaddingBytes = true :=
  letI := Ex.ext
  C16_errors_plain (types := [t!"uint8[2]"]) (ts := [.sized 2 (.uint 8)]) (strict := true)
    (.cons ⟨.sized (s := t!"uint8") (k := 2) (.uint (n := 8) (by decide +kernel)) (by decide +kernel) (by decide +kernel),
      by decide +kernel⟩ .nil)
    (by
      intro t ht
      simp only [List.mem_cons, List.not_mem_nil, or_false] at ht
      subst ht
      constructor <;> intro h <;> cases h with | sized h => cases h)
    (.bytes (be32 7 ++ be32 256)) (by decide +kernel) (by decide +kernel)

/-! ## C18 -/

/-- **C18, part.**  What `decode` returns is stored in the data along offsets each of which points
before the end of the data, in an array behind all the heads and in a tuple (or the argument list)
behind one word for each component.  Missing: a tuple's static components of more than one word have
longer heads, and an offset may point into them, see `C18_pointers_false`. -/
theorem C18_pointers_partial [Ext] {types : List TypeStr} {ts : List Ty} (hT : Names types ts)
    {data : PyVal} {d : Bytes} (hd : IsBytes data d) (hl : Fits d) {strict : Bool} {v : PyVal}
    (h : decode types data strict = .ok v) :
    ∃ xs, v = .tuple (toPyAll ts xs) ∧ ReadsArgs (fun us => 32 * us.length) strict ts d xs := by
  obtain ⟨xs, h1, rfl⟩ := (decode_reads hT hd hl).1 h
  refine ⟨xs, rfl, readsArgs_minHead (fun us hus => codeHead_words ?_) h1⟩
  by_cases hne : ts = []
  · subst hne
    intro u hu
    cases hus with
    | self => simp at hu
    | tuple hm _ => simp at hm
  · have : (Ty.tuple ts).Valid := ⟨hne, Ty.allValid_iff.2 (supportedAll_valid hT)⟩
    exact Ty.allValid_iff.1 (occurs_valid hus this).2

/-- **C18, when the static components are flat.**  If no tuple (and not the argument list) has a static
component that is a tuple or an array of arrays or tuples, all offsets point behind the whole head. -/
theorem C18_pointers_flat [Ext] {types : List TypeStr} {ts : List Ty} (hT : Names types ts)
    (hf : ∀ us, Occurs (.tuple us) (.tuple ts) → ∀ u ∈ us, u.dynamic = true ∨ u.flat = true)
    {data : PyVal} {d : Bytes} (hd : IsBytes data d) (hl : Fits d) {strict : Bool} {v : PyVal}
    (h : decode types data strict = .ok v) :
    ∃ xs, v = .tuple (toPyAll ts xs) ∧ ReadsArgs headBytes strict ts d xs := by
  obtain ⟨xs, h1, rfl⟩ := (decode_reads hT hd hl).1 h
  exact ⟨xs, rfl, readsArgs_minHead (fun us hus => (codeHead_flat (hf us hus)).ge) h1⟩

/-- **C18, the exception.**  If all types are dynamic and one of the offsets in the head is too small
or too large, `decode` raises `InvalidPointer`. -/
theorem C18_pointers_refused [Ext] {types : List TypeStr} {ts : List Ty} (hT : Names types ts)
    (hdy : ∀ t ∈ ts, t.dynamic = true) {data : PyVal} {d : Bytes} (hd : IsBytes data d) (hl : Fits d)
    (hh : 32 * ts.length ≤ d.length) {i off : Nat} (hi : i < ts.length) (hoff : off < 2 ^ 256)
    (hat : At d (32 * i) (be32 off)) (hbad : off < 32 * ts.length ∨ d.length ≤ off)
    (strict : Bool) : decode types data strict = .error .invalidPointer := by
  have h1 := decode_eq hT (isBytes_iff.1 hd) hl strict
  have hw : headWordsAll ts = ts.length := by
    clear h1 hbad hat hi hh hT
    induction ts with
    | nil => rfl
    | cons t ts ih =>
      have ih := ih fun t ht => hdy t (by simp [ht])
      simp only [headWordsAll, List.map_cons, List.sum_cons, List.length_cons] at *
      rw [ih, headWords, if_pos (hdy t (by simp))]
      omega
  have h2 : posTop strict ts d = .error .invalidPointer := by
    rw [posTop, hw, checkAll_bad hdy (by omega) hi hoff (by rwa [Nat.zero_add]) hbad]
    rfl
  rw [h1, h2]
  rfl

theorem names_pair_bytes [Ext] :
    Names [t!"(uint256,uint256)", t!"bytes"] [.tuple [.uint 256, .uint 256], .bytes] :=
  .cons ⟨.tuple (s := t!"uint256,uint256") (.cons (s := t!"uint256") (s' := t!"uint256")
    (.uint (n := 256) (by decide +kernel)) (.one (.uint (n := 256) (by decide +kernel)))), by decide +kernel⟩
    (.cons ⟨.bytes, by decide +kernel⟩ .nil)

/-- An offset into the head is followed: the head of `["(uint256,uint256)", "bytes"]` has 96 bytes and
the offset 64, which points to itself, is accepted. -/
theorem C18_pointers_false [Ext] : ¬ ∀ (types : List TypeStr) (ts : List Ty), Names types ts →
    ∀ (d : Bytes) (v : PyVal), Fits d → decode types (.bytes d) = .ok v →
      ∃ xs, ReadsArgs headBytes true ts d xs := by
  intro h
  let d : Bytes := be32 1 ++ be32 2 ++ be32 64 ++ List.replicate 64 7
  have h1 := decode_eq names_pair_bytes (data := .bytes d) (d := d) rfl (by decide +kernel) true
  obtain ⟨xs, hx⟩ := h _ _ names_pair_bytes d
    (.tuple [.tuple [.int 1, .int 2], .bytes (List.replicate 64 7)]) (by decide +kernel)
    (h1.trans (by decide +kernel))
  match xs, hx with
  | [x, y], ⟨_, ⟨off, h3, h4, h5, _⟩, _⟩ =>
    have h6 : At d 64 (be32 off) := h4
    have h7 : At d 64 (be32 64) := by decide +kernel
    have h8 := wordAt_iff.2 ⟨h3, h6⟩
    rw [wordAt_iff.2 ⟨by decide +kernel, h7⟩] at h8
    injection h8 with h8
    subst h8
    exact absurd h5 (by decide +kernel)
  | [], hx => exact hx.elim
  | [_], hx => exact hx.2.elim
  | _ :: _ :: _ :: _, hx => exact hx.2.2.elim

example : ∃ xs, PyVal.tuple
    [.tuple [.tuple [.int (-2), .str (ofChars t!"abc")], .tuple [.int 127, .str []]],
     .bytes [1, 2, 3], .dec (.fin (-12) (-1)), .int 7] = .tuple (toPyAll Ex.tys xs) ∧
    ReadsArgs (fun us => 32 * us.length) true Ex.tys (encodeArgs Ex.tys Ex.vals) xs :=
  letI := Ex.ext
  C18_pointers_partial Ex.names (.bytes _) Ex.fits Ex.decodes

example [Ext] : decode [t!"bytes", t!"uint8[]"] (.bytes (be32 64 ++ be32 63 ++ be32 0)) false =
    .error .invalidPointer :=
  C18_pointers_refused names_bytes_uints (by decide +kernel) (.bytes _) (by decide +kernel) (by decide +kernel) (i := 1)
    (off := 63) (by decide +kernel) (by decide +kernel) (by decide +kernel) (by decide +kernel) false

/-! ## C19 -/

/-- **C19.**  Every list or tuple in what `decode` returns, at any depth, has at most one item for each
word of the data. -/
theorem C19_bounded [Ext] {types : List TypeStr} {data : PyVal} {d : Bytes} (hd : IsBytes data d)
    (hl : Fits d) {strict : Bool} {v : PyVal} (h : decode types data strict = .ok v) :
    EverySeq (fun k => 32 * k ≤ d.length) v := by
  obtain ⟨ts, hT⟩ := names_of_decode hd hl h
  obtain ⟨xs, h1, rfl⟩ := (decode_reads hT hd hl).1 h
  exact readsArgs_everySeq (supportedAll_valid hT) h1

example : EverySeq (fun k => 32 * k ≤ (encodeArgs Ex.tys Ex.vals).length) (.tuple
    [.tuple [.tuple [.int (-2), .str (ofChars t!"abc")], .tuple [.int 127, .str []]],
     .bytes [1, 2, 3], .dec (.fin (-12) (-1)), .int 7]) :=
  letI := Ex.ext
  C19_bounded (.bytes _) Ex.fits Ex.decodes

/-! ## C38 -/

/-- **C38, frames.**  The decoder of a supported type, on any stream with any frames, leaves the data,
the frames and the base offset as they were; the cursor does not go back and stays inside the data. -/
theorem C38_frames [Ext] {s : TypeStr} {strict : Bool} {dec : Decoder}
    (hs : getDecoder defaultRegistry s strict = .ok dec) {fl : Flags} {st st' : Stream} {v : PyVal}
    (h : dec.call fl st = .ok (v, st')) :
    st'.data = st.data ∧ st'.frames = st.frames ∧ st'.total = st.total ∧ st.pos ≤ st'.pos ∧
      (st.pos ≤ st.data.length → st'.pos ≤ st.data.length) := by
  rcases getDecoder_default s strict with ⟨t, _, h2⟩ | ⟨_, e, h2, _⟩
  · rw [hs] at h2
    injection h2 with h2
    subst h2
    obtain ⟨h1, h2, h3, h4, h5⟩ := tidy_setStrict (decOf_tidy t) strict _ _ _ _ _ h
    exact ⟨h1, h2, h3, h4, h5⟩
  · rw [hs] at h2; cases h2

/-- **C38, static types.**  The decoder of a static type advances the cursor by the size of its
encoding. -/
theorem C38_static [Ext] {s : TypeStr} {t : Ty} (hs : Supported s t) (hd : t.dynamic = false)
    {strict : Bool} {dec : Decoder} (hg : getDecoder defaultRegistry s strict = .ok dec)
    {fl : Flags} {st st' : Stream} {v : PyVal} (hl : Fits st.data) (hp : st.pos ≤ st.data.length)
    (h : dec.call fl st = .ok (v, st')) : st'.pos = st.pos + t.size := by
  rw [getDecoder_supported hs] at hg
  injection hg with hg
  subst hg
  have := (decOf_strict t strict).run fl st hl (hp.trans hl) (by simp [hd])
  unfold RunsAs at this
  split at this
  · rw [h] at this; cases this
  · obtain ⟨st'', h1, _, _, _, _, h2⟩ := this
    rw [h] at h1
    injection h1 with h1
    injection h1 with _ h1
    subst h1
    exact h2 hd

/-- **C38, any element decoder.**  Tuples and arrays of decoders that restore the frames, also of the
user's own decoders, restore them too. -/
theorem C38_compose {ds : List Decoder} (hd : ∀ d ∈ ds, Tidy d) : Tidy (mkTupleD ds) ∧
    ∀ d ∈ ds, ∀ d', (mkDynamicArrayD d = .ok d' → Tidy d') ∧
      ∀ k, mkSizedArrayD k d = .ok d' → Tidy d' :=
  ⟨tuple_tidy hd, fun d hm _ => ⟨dynamicArray_tidy (hd d hm), fun _ => sizedArray_tidy (hd d hm)⟩⟩

/-- `uint8[]` in the second frame of a stream. -/
def framedStream : Stream := ⟨be32 9 ++ be32 2 ++ be32 5 ++ be32 6, 32, [(32, 7)], 32⟩

example [Ext] : ∃ st', ((decOf (.dyn (.uint 8))).setStrict true).call (fun _ => true) framedStream =
    .ok (.tuple [.int 5, .int 6], st') ∧ st'.frames = [(32, 7)] ∧ st'.pos = 64 := by
  have h : ((decOf (.dyn (.uint 8))).setStrict true).call (fun _ => true) framedStream =
    .ok (.tuple [.int 5, .int 6], { framedStream with pos := 64 }) := by rfl
  have hs := getDecoder_supported (s := t!"uint8[]") (t := .dyn (.uint 8))
    ⟨.dyn (s := t!"uint8") (.uint (n := 8) (by decide +kernel)), by decide +kernel⟩ true
  exact ⟨_, h, (C38_frames hs h).2.1, rfl⟩

end EthAbi
